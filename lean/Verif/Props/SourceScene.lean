import Verif.Props.Covariance
import Verif.Props.Directivity

/-! A scene of sources in uniform noise, seen by the covariance tools and MUSIC: C160. -/

namespace Verif.Props
open Parsa Sph Matrix Real

/-- Covariance of sources with mixing matrix `A` (a column per source) and source covariance `P` in uncorrelated noise of energy `s` in every channel. -/
def sceneCov {L K : ℕ} (A : Matrix (Fin L) (Fin K) ℝ) (P : Matrix (Fin K) (Fin K) ℝ) (s : ℝ) : Matrix (Fin L) (Fin L) ℝ := A * P * Aᵀ + s • 1

theorem sceneCov_symm {L K : ℕ} (A : Matrix (Fin L) (Fin K) ℝ) (P : Matrix (Fin K) (Fin K) ℝ) (hP : P.PosDef) (s : ℝ) : (sceneCov A P s)ᵀ = sceneCov A P s := by
  have hsym : Pᵀ = P := by rw [← conjTranspose_eq_transpose_of_trivial]; exact hP.isHermitian
  unfold sceneCov
  rw [transpose_add, transpose_mul, transpose_mul, hsym, transpose_transpose, transpose_smul, transpose_one, Matrix.mul_assoc]

theorem sceneCov_mulVec {L K : ℕ} (A : Matrix (Fin L) (Fin K) ℝ) (P : Matrix (Fin K) (Fin K) ℝ) (s : ℝ) (x : Fin L → ℝ) :
    sceneCov A P s *ᵥ x = A *ᵥ (P *ᵥ (Aᵀ *ᵥ x)) + s • x := by
  unfold sceneCov
  rw [add_mulVec, smul_mulVec, one_mulVec, ← mulVec_mulVec, ← mulVec_mulVec]

theorem sceneCov_quad {L K : ℕ} (A : Matrix (Fin L) (Fin K) ℝ) (P : Matrix (Fin K) (Fin K) ℝ) (s : ℝ) (x : Fin L → ℝ) :
    x ⬝ᵥ sceneCov A P s *ᵥ x = (Aᵀ *ᵥ x) ⬝ᵥ P *ᵥ (Aᵀ *ᵥ x) + s * (x ⬝ᵥ x) := by
  rw [sceneCov_mulVec, dotProduct_add, dotProduct_smul, smul_eq_mul, dotProduct_mulVec, ← mulVec_transpose]

theorem eigh_mulVec {L : ℕ} {S v : Matrix (Fin L) (Fin L) ℝ} {w : Fin L → ℝ} (he : IsEigh S w v) (i : Fin L) : S *ᵥ v.col i = w i • v.col i := by
  have h : S * v = v * diagonal w := by
    conv_lhs => rw [he.decomp]
    rw [Matrix.mul_assoc, he.orth, Matrix.mul_one]
  funext q
  have := congrFun (congrFun h q) i
  rw [mul_diagonal] at this
  change (S * v) q i = w i * v q i
  rw [this, mul_comm]

theorem eigh_col_dot {L : ℕ} {S v : Matrix (Fin L) (Fin L) ℝ} {w : Fin L → ℝ} (he : IsEigh S w v) (i j : Fin L) : v.col i ⬝ᵥ v.col j = if i = j then 1 else 0 := by
  have := congrFun (congrFun he.orth i) j
  rw [one_apply] at this
  exact this

theorem eigh_linInd {L : ℕ} {S v : Matrix (Fin L) (Fin L) ℝ} {w : Fin L → ℝ} (he : IsEigh S w v) : LinearIndependent ℝ v.col := by
  rw [linearIndependent_cols_iff_isUnit, isUnit_iff_isUnit_det]
  have := congrArg det he.orth
  rw [det_mul, det_transpose, det_one] at this
  exact IsUnit.of_mul_eq_one _ this

/-- The eigenvectors of a scene: the last `K` ones belong to larger eigenvalues than the noise and lie in the span of the sources, the others have the energy of the
noise as eigenvalue and are orthogonal to all sources. -/
theorem scene_eigen {L K : ℕ} (A : Matrix (Fin L) (Fin K) ℝ) (hA : LinearIndependent ℝ A.col) (P : Matrix (Fin K) (Fin K) ℝ) (hP : P.PosDef) (s : ℝ)
    {w : Fin L → ℝ} {v : Matrix (Fin L) (Fin L) ℝ} (he : IsEigh (sceneCov A P s) w v) (i : Fin L) :
    (L - K ≤ (i : ℕ) → s < w i ∧ ∃ x, v.col i = A *ᵥ x) ∧ ((i : ℕ) + K < L → w i = s ∧ Aᵀ *ᵥ v.col i = 0) := by
  classical
  have hquad : ∀ j, w j - s = (Aᵀ *ᵥ v.col j) ⬝ᵥ P *ᵥ (Aᵀ *ᵥ v.col j) := by
    intro j
    have h1 := sceneCov_quad A P s (v.col j)
    rw [eigh_mulVec he, dotProduct_smul, eigh_col_dot he, if_pos rfl] at h1
    simp only [smul_eq_mul, mul_one] at h1
    linarith
  have hge : ∀ j, s ≤ w j := by
    intro j
    have : 0 ≤ (Aᵀ *ᵥ v.col j) ⬝ᵥ P *ᵥ (Aᵀ *ᵥ v.col j) := by simpa using hP.posSemidef.dotProduct_mulVec_nonneg (Aᵀ *ᵥ v.col j)
    have := hquad j
    linarith
  have hnoise : ∀ j, w j = s → Aᵀ *ᵥ v.col j = 0 := by
    intro j hj
    by_contra hne
    have := hP.dotProduct_mulVec_pos hne
    simp only [star_trivial] at this
    have := hquad j
    linarith
  have hsrc : ∀ j, s < w j → ∃ x, v.col j = A *ᵥ x := by
    intro j hj
    refine ⟨(w j - s)⁻¹ • (P *ᵥ (Aᵀ *ᵥ v.col j)), ?_⟩
    have h1 := eigh_mulVec he j
    rw [sceneCov_mulVec] at h1
    have h2 : A *ᵥ (P *ᵥ (Aᵀ *ᵥ v.col j)) = (w j - s) • v.col j := by rw [sub_smul, ← h1]; abel
    rw [mulVec_smul, h2, smul_smul, inv_mul_cancel₀ (by linarith), one_smul]
  -- number of eigenvalues above the noise
  have hli := eigh_linInd he
  have hcard : ∀ (T : Finset (Fin L)) (M : Submodule ℝ (Fin L → ℝ)), (∀ j ∈ T, v.col j ∈ M) → T.card ≤ Module.finrank ℝ M := by
    intro T M hT
    have h1 : LinearIndependent ℝ fun j : T => v.col j := hli.comp _ Subtype.val_injective
    have h2 := finrank_span_eq_card h1
    rw [Fintype.card_coe] at h2
    rw [← h2]
    refine Submodule.finrank_mono (Submodule.span_le.2 ?_)
    rintro _ ⟨j, rfl⟩
    exact hT j j.2
  have hrank : A.rank = K := by
    have h1 : Function.Injective A.mulVecLin := mulVec_injective_iff.2 hA
    have h2 := LinearMap.finrank_range_of_inj h1
    rw [Module.finrank_fin_fun] at h2
    exact h2
  have hrange : Module.finrank ℝ (LinearMap.range A.mulVecLin) = K := hrank
  have hker : Module.finrank ℝ (LinearMap.ker Aᵀ.mulVecLin) + K = L := by
    have h1 := LinearMap.finrank_range_add_finrank_ker Aᵀ.mulVecLin
    have h2 : Module.finrank ℝ (LinearMap.range Aᵀ.mulVecLin) = K := by
      have := rank_transpose A
      rw [hrank] at this
      exact this
    rw [h2, Module.finrank_fin_fun] at h1
    omega
  obtain ⟨T, hT⟩ : ∃ T : Finset (Fin L), T = Finset.univ.filter fun j => s < w j := ⟨_, rfl⟩
  have hmem : ∀ j, j ∈ T ↔ s < w j := by intro j; rw [hT]; simp
  have hT1 : T.card ≤ K := by
    rw [← hrange]
    refine hcard T _ fun j hj => ?_
    obtain ⟨x, hx⟩ := hsrc j ((hmem j).1 hj)
    exact ⟨x, hx.symm⟩
  have hT2 : Tᶜ.card + K ≤ L := by
    have := hcard Tᶜ (LinearMap.ker Aᵀ.mulVecLin) fun j hj => by
      rw [Finset.mem_compl, hmem] at hj
      exact hnoise j (le_antisymm (not_lt.1 hj) (hge j))
    omega
  have hcc := Finset.card_compl T
  rw [Fintype.card_fin] at hcc
  have hTle : T.card ≤ L := by simpa using T.card_le_univ
  have hTK : T.card = K := by omega
  have hiff : i ∈ T ↔ L - K ≤ (i : ℕ) := by
    constructor
    · intro hi
      have hsub : Finset.Ici i ⊆ T := by
        intro j hj
        rw [hmem] at hi ⊢
        exact hi.trans_le (he.mono (Finset.mem_Ici.1 hj))
      have := Finset.card_le_card hsub
      rw [Fin.card_Ici] at this
      omega
    · intro hi
      by_contra hn
      have hsub : T ⊆ Finset.Ioi i := by
        intro j hj
        rw [Finset.mem_Ioi]
        by_contra hji
        rw [hmem] at hj hn
        exact hn (hj.trans_le (he.mono (not_lt.1 hji)))
      have := Finset.card_le_card hsub
      rw [Fin.card_Ioi] at this
      have := i.2
      omega
  constructor
  · intro hi
    have := (hmem i).1 (hiff.2 hi)
    exact ⟨this, hsrc i this⟩
  · intro hi
    have hni : ¬ s < w i := fun h => by have := hiff.1 ((hmem i).2 h); omega
    have : w i = s := le_antisymm (not_lt.1 hni) (hge i)
    exact ⟨this, hnoise i this⟩

/-- **C160**: `separate_cov` given the number of sources returns exactly the covariance of the sources and that of the noise. -/
theorem C160_separate (eigh) {L K : ℕ} (hK : 1 ≤ K) (hL : K < L) (A : Matrix (Fin L) (Fin K) ℝ) (hA : LinearIndependent ℝ A.col)
    (P : Matrix (Fin K) (Fin K) ℝ) (hP : P.PosDef) (s : ℝ) (he : EighOf eigh (sceneCov A P s)) :
    separateCov eigh (sceneCov A P s) (some (K : ℤ)) = .ok (A * P * Aᵀ, s • 1) := by
  obtain ⟨w, hw⟩ : ∃ w, w = (eigh L (sceneCov A P s)).1 := ⟨_, rfl⟩
  obtain ⟨v, hv⟩ : ∃ v, v = (eigh L (sceneCov A P s)).2 := ⟨_, rfl⟩
  have he' : IsEigh (sceneCov A P s) w v := by rw [hw, hv]; exact he
  have hlow : ∀ i : Fin L, (i : ℕ) + K < L → w i = s := fun i hi => ((scene_eigen A hA P hP s he' i).2 hi).1
  have hidx : npIndex w (-((K : ℤ) + 1)) = .ok s := by
    unfold npIndex
    rw [dif_neg (by omega), dif_pos (by omega)]
    exact congrArg Except.ok (hlow _ (by change ((L : ℤ) + -((K : ℤ) + 1)).toNat + K < L; omega))
  have hcut : sliceBound L (-(K : ℤ)) = L - K := by
    unfold sliceBound
    rw [if_pos (by omega)]
    omega
  have hdiag : (diagonal fun i : Fin L => if L - K ≤ (i : ℕ) then s else w i) = s • (1 : Matrix (Fin L) (Fin L) ℝ) := by
    ext i j
    rw [diagonal_apply, Matrix.smul_apply, one_apply]
    by_cases hij : i = j
    · rw [if_pos hij, if_pos hij, smul_eq_mul, mul_one]
      split_ifs with h
      · rfl
      · exact hlow i (by omega)
    · rw [if_neg hij, if_neg hij, smul_zero]
  obtain ⟨Spp, Snn, h⟩ : ∃ Spp Snn, splitCov w v (K : ℤ) = .ok (Spp, Snn) := by
    unfold splitCov
    rw [hidx]
    exact ⟨_, _, rfl⟩
  have hsum := splitCov_sum he' K Spp Snn h
  have hnn : Snn = s • 1 := by
    unfold splitCov at h
    rw [hidx] at h
    simp only [Except.map, Except.ok.injEq, Prod.mk.injEq, hcut] at h
    rw [← h.2, hdiag, Matrix.mul_smul, Matrix.mul_one, Matrix.smul_mul, he'.orth']
  have hpp : Spp = A * P * Aᵀ := by
    rw [hnn] at hsum
    exact add_right_cancel hsum
  rw [separateCov_some, ← hw, ← hv, h, hpp, hnn]

/-- A scene of one source in the first of two channels, which `C160_separate` takes apart. -/
example : ∃ eigh : (n : ℕ) → Matrix (Fin n) (Fin n) ℝ → (Fin n → ℝ) × Matrix (Fin n) (Fin n) ℝ,
    separateCov eigh (sceneCov !![(1 : ℝ); 0] 1 3) (some 1) = .ok (!![(1 : ℝ); 0] * (1 : Matrix (Fin 1) (Fin 1) ℝ) * !![(1 : ℝ); 0]ᵀ, (3 : ℝ) • 1) := by
  obtain ⟨eigh, he⟩ := eigh_exists
  refine ⟨eigh, C160_separate eigh (K := 1) le_rfl (by norm_num) _ ?_ 1 PosDef.one 3 (he 2 _ (sceneCov_symm _ _ PosDef.one _))⟩
  refine (linearIndependent_unique_iff (ι := Fin 1)).2 fun h => ?_
  have := congrFun h 0
  simp [col] at this

/-- Independence of steering vectors: a polynomial vanishing at all directions but one. -/
theorem steer_separate (N K : ℕ) (hK : K ≤ N) (azi zen : Fin K → ℝ) (hz : ∀ k, zen k ∈ Set.Icc 0 π) (a z : ℝ) (hz' : z ∈ Set.Icc 0 π)
    (hne : ∀ k, dirVec a z ≠ dirVec (azi k) (zen k)) :
    ∃ c : Fin ((N + 1) ^ 2) → ℝ, c ⬝ᵥ shVec N a z ≠ 0 ∧ ∀ k, c ⬝ᵥ shVec N (azi k) (zen k) = 0 := by
  open MvPolynomial in
  obtain ⟨p, hp⟩ : ∃ p : MvPolynomial (Fin 3) ℝ, p = ∏ k : Fin K, (1 - ∑ c : Fin 3, C (dirVec (azi k) (zen k) c) * X c) := ⟨_, rfl⟩
  have hunit : ∀ a z : ℝ, ∑ c, dirVec a z c ^ 2 = 1 := by
    intro a z
    simp [dirVec, Fin.sum_univ_three]
    have := sin_sq_add_cos_sq a; have := sin_sq_add_cos_sq z; nlinarith
  have heval : ∀ x : Fin 3 → ℝ, MvPolynomial.eval x p = ∏ k : Fin K, (1 - ∑ c, dirVec (azi k) (zen k) c * x c) := by
    intro x
    rw [hp, map_prod]
    refine Finset.prod_congr rfl fun k _ => ?_
    simp
  have hdeg : p.totalDegree ≤ N := by
    rw [hp]
    refine (MvPolynomial.totalDegree_finset_prod _ _).trans ((Finset.sum_le_card_nsmul _ _ 1 fun k _ => ?_).trans (by simpa using hK))
    refine (MvPolynomial.totalDegree_sub _ _).trans (max_le (by simp) ?_)
    refine (MvPolynomial.totalDegree_finset_sum _ _).trans (Finset.sup_le fun c _ => ?_)
    refine (MvPolynomial.totalDegree_mul _ _).trans ?_
    rw [MvPolynomial.totalDegree_C, MvPolynomial.totalDegree_X]
  obtain ⟨c, hc⟩ := (C79_polynomials N fun a z => MvPolynomial.eval (dirVec a z) p).2 ⟨p, hdeg, fun a z _ => rfl⟩
  refine ⟨c, ?_, fun k => ?_⟩
  · rw [dotProduct, ← hc a z hz', heval, Finset.prod_ne_zero_iff]
    intro k _ h0
    refine hne k ?_
    have h1 := hunit a z
    have h2 := hunit (azi k) (zen k)
    have h3 : ∑ c, (dirVec a z c - dirVec (azi k) (zen k) c) ^ 2 = 0 := by
      have : ∀ c, (dirVec a z c - dirVec (azi k) (zen k) c) ^ 2 = dirVec a z c ^ 2 + dirVec (azi k) (zen k) c ^ 2 - 2 * (dirVec (azi k) (zen k) c * dirVec a z c) :=
        fun c => by ring
      rw [Finset.sum_congr rfl fun c _ => this c, Finset.sum_sub_distrib, Finset.sum_add_distrib, ← Finset.mul_sum, h1, h2]
      linarith
    rw [Finset.sum_eq_zero_iff_of_nonneg fun c _ => sq_nonneg _] at h3
    funext c
    have := h3 c (Finset.mem_univ _)
    have := pow_eq_zero_iff (two_ne_zero) |>.1 this
    linarith
  · rw [dotProduct, ← hc _ _ (hz k), heval]
    refine Finset.prod_eq_zero (Finset.mem_univ k) ?_
    have := hunit (azi k) (zen k)
    simp only [sq] at this
    rw [this, sub_self]

/-- Steering vectors of up to `N + 1` different directions are linearly independent. -/
theorem steer_linInd (N K : ℕ) (hK : K ≤ N + 1) (azi zen : Fin K → ℝ) (hz : ∀ k, zen k ∈ Set.Icc 0 π)
    (hinj : Function.Injective fun k => dirVec (azi k) (zen k)) : LinearIndependent ℝ fun k => shVec N (azi k) (zen k) := by
  rw [Fintype.linearIndependent_iff]
  intro g hg k
  rcases K with _ | K
  · exact k.elim0
  obtain ⟨c, hc1, hc2⟩ := steer_separate N K (by omega) (fun j => azi (k.succAbove j)) (fun j => zen (k.succAbove j)) (fun j => hz _) (azi k) (zen k) (hz k)
    (fun j h => k.succAbove_ne j (hinj h.symm))
  have h1 : c ⬝ᵥ ∑ i, g i • shVec N (azi i) (zen i) = 0 := by rw [hg, dotProduct_zero]
  rw [dotProduct_sum, Fin.sum_univ_succAbove _ k] at h1
  simp only [dotProduct_smul, hc2, mul_zero, Finset.sum_const_zero, add_zero, smul_eq_mul] at h1
  exact (mul_eq_zero.1 h1).resolve_right hc1

/-- The steering vector depends on the direction only. -/
theorem shVec_congr_dir (N : ℕ) (a z a' z' : ℝ) (hz : z ∈ Set.Icc 0 π) (hz' : z' ∈ Set.Icc 0 π) (h : dirVec a z = dirVec a' z') : shVec N a z = shVec N a' z' := by
  funext q
  obtain ⟨p, -, hp⟩ := (C79_polynomials N fun a z => shVec N a z q).1 ⟨Pi.single q 1, fun a z _ => by simp [Pi.single_apply]⟩
  rw [hp a z hz, hp a' z' hz', h]

/-- **C160**: with at least one and at most `N` sources from different directions, correlated or not but none a copy of others, in uncorrelated noise of any level,
`sh_music` attains its maximum exactly at the directions of the sources. -/
theorem C160_music (eigh) {N K g : ℕ} (hK : 1 ≤ K) (hN : K ≤ N) (sAzi sZen : Fin K → ℝ) (hz : ∀ k, sZen k ∈ Set.Icc 0 π)
    (hinj : Function.Injective fun k => dirVec (sAzi k) (sZen k)) (P : Matrix (Fin K) (Fin K) ℝ) (hP : P.PosDef) (s : ℝ)
    (he : EighOf eigh (sceneCov (shMat N sAzi sZen)ᵀ P s)) (azi zen : Fin g → ℝ) (hzen : ∀ j, zen j ∈ Set.Icc 0 π) :
    ∃ M, shMusic eigh (sceneCov (shMat N sAzi sZen)ᵀ P s) K azi zen = .ok M ∧
      ∀ j, M j = 1 / 10e-12 ↔ ∃ k, dirVec (azi j) (zen j) = dirVec (sAzi k) (sZen k) := by
  obtain ⟨A, hA⟩ : ∃ A : Matrix (Fin ((N + 1) ^ 2)) (Fin K) ℝ, A = (shMat N sAzi sZen)ᵀ := ⟨_, rfl⟩
  rw [← hA] at he ⊢
  have hcol : ∀ k, A.col k = shVec N (sAzi k) (sZen k) := by intro k; rw [hA]; rfl
  have hli : LinearIndependent ℝ A.col := by
    have h := steer_linInd N K (by omega) sAzi sZen hz hinj
    have : A.col = fun k => shVec N (sAzi k) (sZen k) := funext hcol
    rw [this]; exact h
  obtain ⟨M, hM, hmax⟩ := music_max_iff eigh (sceneCov A P s) K hK azi zen
  refine ⟨M, hM, fun j => ?_⟩
  rw [hmax]
  obtain ⟨v, hv⟩ : ∃ v, v = (eigh ((N + 1) ^ 2) (sceneCov A P s)).2 := ⟨_, rfl⟩
  have he' : IsEigh (sceneCov A P s) (eigh ((N + 1) ^ 2) (sceneCov A P s)).1 v := by rw [hv]; exact he
  rw [← hv]
  obtain ⟨y, hy⟩ : ∃ y, y = shVec N (azi j) (zen j) := ⟨_, rfl⟩
  rw [← hy]
  constructor
  · intro horth
    by_contra hno
    push Not at hno
    obtain ⟨c, hc1, hc2⟩ := steer_separate N K hN sAzi sZen hz (azi j) (zen j) (hzen j) hno
    rw [← hy] at hc1
    -- y is a combination of eigenvectors in the span of the sources
    have hexp : y = ∑ i, (v.col i ⬝ᵥ y) • v.col i := by
      have h1 : y = (v * vᵀ) *ᵥ y := by rw [he'.orth', one_mulVec]
      conv_lhs => rw [h1, ← mulVec_mulVec, mulVec_eq_sum]
      refine Finset.sum_congr rfl fun i _ => ?_
      rw [op_smul_eq_smul]
      rfl
    refine hc1 ?_
    rw [hexp, dotProduct_sum]
    refine Finset.sum_eq_zero fun i _ => ?_
    rw [dotProduct_smul]
    rcases Nat.lt_or_ge ((i : ℕ) + K) ((N + 1) ^ 2) with hi | hi
    · have : v.col i ⬝ᵥ y = 0 := horth i hi
      rw [this, zero_smul]
    · obtain ⟨-, x, hx⟩ := (scene_eigen A hli P hP s he' i).1 (by omega)
      have : c ⬝ᵥ v.col i = 0 := by
        rw [hx, mulVec_eq_sum, dotProduct_sum]
        refine Finset.sum_eq_zero fun k _ => ?_
        have hk : c ⬝ᵥ Aᵀ k = 0 := by rw [← hc2 k, ← hcol k]; rfl
        rw [op_smul_eq_smul, dotProduct_smul, hk, smul_zero]
      rw [this, smul_zero]
  · rintro ⟨k, hk⟩ i hi
    have hyk : y = A.col k := by
      rw [hcol, hy]
      exact shVec_congr_dir N _ _ _ _ (hzen j) (hz k) hk
    obtain ⟨-, h0⟩ := (scene_eigen A hli P hP s he' i).2 hi
    have := congrFun h0 k
    rw [hyk, dotProduct_comm]
    exact this

/-- Two sources above and below an array of order two. -/
theorem poles_injective : Function.Injective fun k : Fin 2 => dirVec (0 : ℝ) ((![0, π] : Fin 2 → ℝ) k) := by
  intro i j h
  have := congrFun h 2
  fin_cases i <;> fin_cases j <;> simp [dirVec] at this ⊢ <;> linarith

example : ∃ eigh : (n : ℕ) → Matrix (Fin n) (Fin n) ℝ → (Fin n → ℝ) × Matrix (Fin n) (Fin n) ℝ,
    ∃ M, shMusic eigh (sceneCov (shMat 2 (fun _ : Fin 2 => 0) ![0, π])ᵀ 1 (1 / 2)) 2 ![0, 0, 0] ![0, π / 2, π] = .ok M ∧ M 0 = 1 / 10e-12 ∧ M 1 ≠ 1 / 10e-12 ∧ M 2 = 1 / 10e-12 := by
  obtain ⟨eigh, he⟩ := eigh_exists
  have hp := pi_pos
  obtain ⟨M, hM, h⟩ := C160_music eigh (N := 2) (K := 2) (by norm_num) le_rfl (fun _ => 0) ![0, π] (fun k => by fin_cases k <;> simp [hp.le]) poles_injective 1 PosDef.one (1 / 2)
    (he _ _ (sceneCov_symm _ _ PosDef.one _)) ![0, 0, 0] ![0, π / 2, π] (fun j => by fin_cases j <;> simp [hp.le]; linarith)
  refine ⟨eigh, M, hM, (h 0).2 ⟨0, rfl⟩, fun h1 => ?_, (h 2).2 ⟨1, rfl⟩⟩
  obtain ⟨k, hk⟩ := (h 1).1 h1
  have := congrFun hk 2
  fin_cases k <;> simp [dirVec] at this

/-- Sum and sum of squares of the eigenvalues. -/
theorem eigh_traces {L : ℕ} {S v : Matrix (Fin L) (Fin L) ℝ} {w : Fin L → ℝ} (he : IsEigh S w v) : S.trace = ∑ i, w i ∧ (S * S).trace = ∑ i, w i ^ 2 := by
  have h1 : ∀ d : Fin L → ℝ, (v * diagonal d * vᵀ).trace = ∑ i, d i := by
    intro d
    rw [trace_mul_comm, ← Matrix.mul_assoc, he.orth, Matrix.one_mul, trace_diagonal]
  have h2 : S * S = v * diagonal (fun i => w i ^ 2) * vᵀ := by
    conv_lhs => rw [he.decomp]
    calc v * diagonal w * vᵀ * (v * diagonal w * vᵀ) = v * diagonal w * (vᵀ * v) * diagonal w * vᵀ := by simp only [Matrix.mul_assoc]
      _ = v * diagonal (fun i => w i ^ 2) * vᵀ := by
        rw [he.orth, Matrix.mul_one, Matrix.mul_assoc v, diagonal_mul_diagonal]
        simp only [sq]
  constructor
  · conv_lhs => rw [he.decomp]
    exact h1 w
  · rw [h2]; exact h1 _

/-- **C160**: `separate_cov` finds the number of sources itself, and separates exactly, when the sources are strong enough: the covariance has the variance of
eigenvalues the threshold `1 + 2/L` asks for, and every beam in the span of the sources receives more than the threshold times the noise (and 10e-8). -/
theorem C160_separate_default (eigh) {L K : ℕ} (hK : 1 ≤ K) (hL : K < L) (A : Matrix (Fin L) (Fin K) ℝ) (hA : LinearIndependent ℝ A.col)
    (P : Matrix (Fin K) (Fin K) ℝ) (hP : P.PosDef) (s : ℝ) (hs : 0 ≤ s) (he : EighOf eigh (sceneCov A P s))
    (hvar : 1 + 2 / (L : ℝ) ≤ (sceneCov A P s * sceneCov A P s).trace / L - ((sceneCov A P s).trace / L) ^ 2)
    (hmin : ∀ x, x ≠ 0 → (1 + 2 / (L : ℝ)) * (s + 10e-8) * ((A *ᵥ x) ⬝ᵥ (A *ᵥ x)) < (A *ᵥ x) ⬝ᵥ sceneCov A P s *ᵥ (A *ᵥ x)) :
    separateCov eigh (sceneCov A P s) none = .ok (A * P * Aᵀ, s • 1) := by
  rw [← C160_separate eigh hK hL A hA P hP s he, separateCov_some]
  obtain ⟨w, hw⟩ : ∃ w, w = (eigh L (sceneCov A P s)).1 := ⟨_, rfl⟩
  obtain ⟨v, hv⟩ : ∃ v, v = (eigh L (sceneCov A P s)).2 := ⟨_, rfl⟩
  have he' : IsEigh (sceneCov A P s) w v := by rw [hw, hv]; exact he
  have hL0 : (0 : ℝ) < L := by exact_mod_cast (by omega : 0 < L)
  have hget : ∀ i : ℕ, (h : i < L) → (List.ofFn w).getD i 0 = w ⟨i, h⟩ := by
    intro i h
    rw [List.getD_eq_getElem?_getD, List.getElem?_eq_getElem (by simpa using h)]
    simp
  have hcount : estimateNumSources (List.ofFn w) none = .ok (K : ℤ) := by
    rw [C65_jump (List.ofFn w) none (1 + 2 / (L : ℝ)) (by simp) ?_ (L - K - 1) (by simp; omega) ?_ ?_]
    · simp; omega
    · obtain ⟨t1, t2⟩ := eigh_traces he'
      rw [t1, t2] at hvar
      refine hvar.trans (le_of_eq ?_)
      unfold npVar
      rw [List.map_ofFn, List.sum_ofFn, List.sum_ofFn, List.length_ofFn]
      simp only [Function.comp]
      obtain ⟨m, hm⟩ : ∃ m, m = (∑ i, w i) / L := ⟨_, rfl⟩
      have hm' : ∑ i, w i = m * L := by rw [hm]; field_simp
      have e : ∑ i, (w i - (∑ i, w i) / L) ^ 2 = ∑ i, w i ^ 2 - m ^ 2 * L := by
        rw [← hm]
        have : ∀ i, (w i - m) ^ 2 = w i ^ 2 - 2 * m * w i + m ^ 2 := fun i => by ring
        rw [Finset.sum_congr rfl fun i _ => this i, Finset.sum_add_distrib, Finset.sum_sub_distrib, ← Finset.mul_sum, hm']
        simp
        ring
      rw [e, ← hm]
      field_simp
    · rw [hget _ (by omega), hget _ (by omega)]
      have h1 := ((scene_eigen A hA P hP s he' ⟨L - K - 1, by omega⟩).2 (by simp only; omega)).1
      obtain ⟨-, x, hx⟩ := (scene_eigen A hA P hP s he' ⟨L - K - 1 + 1, by omega⟩).1 (by simp only; omega)
      rw [h1]
      have hxv : x ≠ 0 := by
        rintro rfl
        have := eigh_col_dot he' ⟨L - K - 1 + 1, by omega⟩ ⟨L - K - 1 + 1, by omega⟩
        rw [hx] at this
        simp at this
      have h2 := hmin x hxv
      rw [← hx, eigh_mulVec he', dotProduct_smul, eigh_col_dot he', if_pos rfl, smul_eq_mul, mul_one, mul_one] at h2
      have hpos : 0 < s + 10e-8 := by positivity
      exact Or.inr ⟨hpos.ne', by rw [lt_div_iff₀ hpos]; exact h2⟩
    · intro i hi
      rw [hget _ (by omega), hget _ (by omega), ((scene_eigen A hA P hP s he' ⟨i, by omega⟩).2 (by simp only; omega)).1,
        ((scene_eigen A hA P hP s he' ⟨i + 1, by omega⟩).2 (by simp only; omega)).1]
      have hpos : 0 < s + 10e-8 := by positivity
      rintro (⟨h, -⟩ | ⟨-, h⟩)
      · exact hpos.ne' h
      · rw [lt_div_iff₀ hpos] at h
        have : 0 ≤ 2 / (L : ℝ) := by positivity
        nlinarith
  unfold separateCov
  rw [dif_pos rfl]
  change (estimateNumSources (List.ofFn (eigh L (sceneCov A P s)).1) none).bind _ = _
  rw [hw] at hcount
  rw [hcount]
  rfl

/-- A strong source in the first of two channels with noise of unit energy. -/
example : ∃ eigh : (n : ℕ) → Matrix (Fin n) (Fin n) ℝ → (Fin n → ℝ) × Matrix (Fin n) (Fin n) ℝ,
    separateCov eigh (sceneCov !![(1 : ℝ); 0] !![100] 1) none = .ok (!![(1 : ℝ); 0] * !![(100 : ℝ)] * !![(1 : ℝ); 0]ᵀ, (1 : ℝ) • 1) := by
  obtain ⟨eigh, he⟩ := eigh_exists
  have hP : (!![100] : Matrix (Fin 1) (Fin 1) ℝ).PosDef := by
    have : (!![100] : Matrix (Fin 1) (Fin 1) ℝ) = (100 : ℝ) • 1 := by ext i j; fin_cases i; fin_cases j; simp
    rw [this]
    exact PosDef.one.smul (by norm_num)
  have hS : sceneCov !![(1 : ℝ); 0] !![100] 1 = !![101, 0; 0, 1] := by
    ext i j
    fin_cases i <;> fin_cases j <;> simp [sceneCov, mul_apply, vecMul, dotProduct] <;> norm_num
  refine ⟨eigh, C160_separate_default eigh (K := 1) le_rfl (by norm_num) _ ?_ _ hP 1 (by norm_num) (he 2 _ (sceneCov_symm _ _ hP _)) ?_ ?_⟩
  · refine (linearIndependent_unique_iff (ι := Fin 1)).2 fun h => ?_
    have := congrFun h 0
    simp [col] at this
  · rw [hS]
    simp [trace, Fin.sum_univ_two]
    norm_num
  · intro x hx
    rw [hS]
    have h0 : x 0 ≠ 0 := fun h => hx (by funext i; fin_cases i; exact h)
    have := sq_pos_of_ne_zero h0
    simp [mulVec, dotProduct, Fin.sum_univ_two]
    nlinarith

/-- **C160**: up to `N + 1` sources from different directions can be taken apart: whatever the (positive definite) covariance, `sh_lcmv` with the directions of all sources as
constraints and any gains, applied by `sh_beamform` to the encoded sources, returns the sum of the sources with these gains. -/
theorem C160_extract {N K T : ℕ} (hK : K ≤ N + 1) (sAzi sZen gain : Fin K → ℝ) (hz : ∀ k, sZen k ∈ Set.Icc 0 π)
    (hinj : Function.Injective fun k => dirVec (sAzi k) (sZen k)) (S : Matrix (Fin ((N + 1) ^ 2)) (Fin ((N + 1) ^ 2)) ℝ) (hS : S.PosDef)
    (x : Matrix (Fin K) (Fin T) ℝ) :
    ∃ w y, shLcmv S (List.ofFn sAzi) (List.ofFn sZen) (List.ofFn gain) = .ok w ∧
      shBeamform (Matrix.of fun _ : Fin 1 => w) (srcToSh x sAzi sZen N) = .ok y ∧ ∀ t, y 0 t = ∑ k, gain k * x k t := by
  have hget : ∀ (f : Fin K → ℝ) (i : ℕ) (h : i < K), (List.ofFn f).getD i 0 = f ⟨i, h⟩ := by
    intro f i h
    rw [List.getD_eq_getElem?_getD, List.getElem?_eq_getElem (by simpa using h)]
    simp
  have hlen : (List.ofFn sAzi).length = K := by simp
  obtain ⟨w, hw, hc, -⟩ := C67_lcmv S hS (List.ofFn sAzi) (List.ofFn sZen) (List.ofFn gain) (by simp) (by simp) (by
    refine steer_linInd N _ (by simpa using hK) (fun j => (List.ofFn sAzi).getD j 0) (fun j => (List.ofFn sZen).getD j 0) (fun k => ?_) (fun i j h => ?_)
    · have hk : (k : ℕ) < K := lt_of_lt_of_eq k.2 hlen
      rw [hget _ _ hk]
      exact hz _
    · have hi : (i : ℕ) < K := lt_of_lt_of_eq i.2 hlen
      have hj : (j : ℕ) < K := lt_of_lt_of_eq j.2 hlen
      simp only [hget _ _ hi, hget _ _ hj] at h
      have := hinj h
      exact Fin.ext (by simpa using this))
  refine ⟨w, _, hw, by unfold shBeamform; rw [dif_pos rfl], fun t => ?_⟩
  have hresp : ∀ k, w ⬝ᵥ shVec N (sAzi k) (sZen k) = gain k := by
    intro k
    have := hc k (by rw [hlen]; exact k.2)
    rwa [hget _ _ k.2, hget _ _ k.2, hget _ _ k.2] at this
  change ∑ q, w q * (srcToSh x sAzi sZen N) q t = _
  unfold srcToSh
  simp only [mul_apply, transpose_apply, Finset.mul_sum]
  rw [Finset.sum_comm]
  refine Finset.sum_congr rfl fun k _ => ?_
  rw [← hresp k, dotProduct, Finset.sum_mul]
  refine Finset.sum_congr rfl fun q _ => ?_
  change w q * (shVec N (sAzi k) (sZen k) q * x k t) = _
  ring

/-- The first of two sources above and below is kept, the second one removed. -/
example : ∃ w y, shLcmv (1 : Matrix (Fin ((1 + 1) ^ 2)) (Fin ((1 + 1) ^ 2)) ℝ) (List.ofFn fun _ : Fin 2 => 0) (List.ofFn ![0, π]) (List.ofFn ![1, 0]) = .ok w ∧
    shBeamform (Matrix.of fun _ : Fin 1 => w) (srcToSh (!![1, 2, 3; 4, 5, 6] : Matrix (Fin 2) (Fin 3) ℝ) (fun _ => 0) ![0, π] 1) = .ok y ∧ y 0 1 = 2 := by
  have hp := pi_pos
  obtain ⟨w, y, hw, hy, h⟩ := C160_extract (N := 1) le_rfl (fun _ : Fin 2 => 0) ![0, π] ![1, 0] (fun k => by fin_cases k <;> simp [hp.le]) poles_injective 1 PosDef.one
    (!![1, 2, 3; 4, 5, 6] : Matrix (Fin 2) (Fin 3) ℝ)
  exact ⟨w, y, hw, hy, by rw [h 1]; simp [Fin.sum_univ_two]⟩

end Verif.Props
