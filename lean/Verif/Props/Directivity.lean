import Verif.Props.Beamformers
import Verif.Props.SphDesigns

/-! Directivity of the beams, and the adaptive beamformers where they become fixed ones: C159. -/

namespace Verif.Props
open Parsa Sph Matrix Real

/-- Energy of the response of a beam, over all directions of incidence. -/
noncomputable def beamEnergy (N : ℕ) (u : Fin ((N + 1) ^ 2) → ℝ) : ℝ :=
  ∫ a in (0 : ℝ)..(2 * π), ∫ z in (0 : ℝ)..π, (u ⬝ᵥ shVec N a z) ^ 2 * sin z

/-- `d` is the directivity of the beam `u` towards a direction: the squared response there is `d` times its mean over all directions. -/
def HasDirectivity (N : ℕ) (u : Fin ((N + 1) ^ 2) → ℝ) (azi zen d : ℝ) : Prop :=
  0 < beamEnergy N u ∧ (u ⬝ᵥ shVec N azi zen) ^ 2 = d * (beamEnergy N u / (4 * π))

theorem shVec_factor (N : ℕ) (q : Fin ((N + 1) ^ 2)) (a z : ℝ) : shVec N a z q = azF (acnDegree q) a * polF (acnOrder q) (acnDegree q).natAbs (cos z) := by
  rw [mul_comm]
  exact realSH_factor _ _ _ _

/-- Parseval: the energy of the response is the energy of the weights. -/
theorem beamEnergy_eq (N : ℕ) (u : Fin ((N + 1) ^ 2) → ℝ) : beamEnergy N u = u ⬝ᵥ u := by
  have hsq : ∀ a z : ℝ, (u ⬝ᵥ shVec N a z) ^ 2 * sin z = ∑ p : Fin ((N + 1) ^ 2) × Fin ((N + 1) ^ 2), u p.1 * u p.2 * (shVec N a z p.1 * shVec N a z p.2 * sin z) := by
    intro a z
    rw [sq, dotProduct, Finset.sum_mul_sum, Fintype.sum_prod_type, Finset.sum_mul]
    refine Finset.sum_congr rfl fun i _ => ?_
    rw [Finset.sum_mul]
    exact Finset.sum_congr rfl fun j _ => by ring
  have hin : ∀ a : ℝ, ∫ z in (0 : ℝ)..π, (u ⬝ᵥ shVec N a z) ^ 2 * sin z =
      ∑ p : Fin ((N + 1) ^ 2) × Fin ((N + 1) ^ 2), u p.1 * u p.2 * ∫ z in (0 : ℝ)..π, shVec N a z p.1 * shVec N a z p.2 * sin z := by
    intro a
    simp only [hsq]
    rw [intervalIntegral.integral_finsetSum]
    · exact Finset.sum_congr rfl fun p _ => intervalIntegral.integral_const_mul _ _
    · intro p _
      simp only [shVec_factor]
      have := polF_continuous (acnOrder p.1) (acnDegree p.1).natAbs
      have := polF_continuous (acnOrder p.2) (acnDegree p.2).natAbs
      exact Continuous.intervalIntegrable (by fun_prop) _ _
  unfold beamEnergy
  simp only [hin]
  rw [intervalIntegral.integral_finsetSum]
  · simp only [intervalIntegral.integral_const_mul, C79_orthonormal]
    rw [Fintype.sum_prod_type]
    simp [dotProduct]
  · intro p _
    have e : ∀ a : ℝ, ∫ z in (0 : ℝ)..π, shVec N a z p.1 * shVec N a z p.2 * sin z = azF (acnDegree p.1) a * azF (acnDegree p.2) a *
        ∫ z in (0 : ℝ)..π, polF (acnOrder p.1) (acnDegree p.1).natAbs (cos z) * polF (acnOrder p.2) (acnDegree p.2).natAbs (cos z) * sin z := by
      intro a
      rw [← intervalIntegral.integral_const_mul]
      exact intervalIntegral.integral_congr fun z _ => by simp only [shVec_factor]; ring
    simp only [e]
    have := azF_continuous (acnDegree p.1)
    have := azF_continuous (acnDegree p.2)
    exact Continuous.intervalIntegrable (by fun_prop) _ _

theorem shVec_norm (N : ℕ) (azi zen : ℝ) : shVec N azi zen ⬝ᵥ shVec N azi zen = (N + 1) ^ 2 / (4 * π) := by
  rw [shVec_arccos, C18_row_norm N azi _ ⟨arccos_nonneg _, arccos_le_pi _⟩]

theorem hyper_ok {J : ℕ} (name : List Char) (hn : name.map Char.toLower = "hypercardioid".toList ∨ name.map Char.toLower = "max_di".toList) (N : ℕ)
    (azi zen : Fin J → ℝ) :
    shBeamformerFromPattern (.name name) N azi zen = .ok fun j => (4 * π / ((N : ℝ) + 1) ^ 2) • shVec N (azi j) (zen j) := by
  have hp : patternWeights (.name name) N = .ok (hypercardioidWeights N) := by
    unfold patternWeights
    exact if_pos hn
  rw [beamformer_ok _ N azi zen _ hp (by simp [hypercardioidWeights])]
  congr 1
  funext j q
  change repVec N _ q * _ = (4 * π / ((N : ℝ) + 1) ^ 2) * _
  congr 1
  have hq : acnOrder q < N + 1 := by have := acnOrder_le q.2; omega
  change (hypercardioidWeights N).getD (acnOrder q) 0 = _
  unfold hypercardioidWeights
  rw [List.getD_eq_getElem?_getD, List.getElem?_eq_getElem (by simpa using hq)]
  simp

/-- **C159**: no beam of order `N` has a larger directivity than `(N+1)²`, towards any direction; the beams `"hypercardioid"` (`"max_di"`) have it towards their
steering direction, with unit response, and they are the only ones up to a factor. -/
theorem C159_max_directivity {J : ℕ} (name : List Char) (hn : name.map Char.toLower = "hypercardioid".toList ∨ name.map Char.toLower = "max_di".toList) (N : ℕ)
    (azi zen : Fin J → ℝ) :
    ∃ W, shBeamformerFromPattern (.name name) N azi zen = .ok W ∧ ∀ j,
      W j ⬝ᵥ shVec N (azi j) (zen j) = 1 ∧ HasDirectivity N (W j) (azi j) (zen j) ((N + 1) ^ 2) ∧
      ∀ (u : Fin ((N + 1) ^ 2) → ℝ) (d : ℝ), HasDirectivity N u (azi j) (zen j) d → d ≤ (N + 1) ^ 2 ∧ (d = (N + 1) ^ 2 → ∃ c : ℝ, u = c • W j) := by
  refine ⟨_, hyper_ok name hn N azi zen, fun j => ?_⟩
  obtain ⟨y, hy⟩ : ∃ y, y = shVec N (azi j) (zen j) := ⟨_, rfl⟩
  have hyy : y ⬝ᵥ y = (N + 1) ^ 2 / (4 * π) := by rw [hy, shVec_norm]
  have hN : (0 : ℝ) < ((N : ℝ) + 1) ^ 2 := by positivity
  have hpi : (0 : ℝ) < 4 * π := by positivity
  rw [← hy]
  have hone : (4 * π / ((N : ℝ) + 1) ^ 2) * (((N : ℝ) + 1) ^ 2 / (4 * π)) = 1 := by field_simp
  have hresp : ((4 * π / ((N : ℝ) + 1) ^ 2) • y) ⬝ᵥ y = 1 := by rw [smul_dotProduct, hyy, smul_eq_mul, hone]
  have hen : beamEnergy N ((4 * π / ((N : ℝ) + 1) ^ 2) • y) = 4 * π / ((N : ℝ) + 1) ^ 2 := by
    rw [beamEnergy_eq, dotProduct_smul, hresp, smul_eq_mul, mul_one]
  refine ⟨hresp, ⟨by rw [hen]; positivity, ?_⟩, fun u d hd => ?_⟩
  · rw [← hy, hresp, hen]; field_simp
  · obtain ⟨h0, h1⟩ := hd
    rw [← hy] at h1
    rw [beamEnergy_eq] at h0 h1
    obtain ⟨k, hk⟩ : ∃ k : ℝ, k = 4 * π / ((N : ℝ) + 1) ^ 2 := ⟨_, rfl⟩
    have hkpos : 0 < k := by rw [hk]; positivity
    have hky : k * (y ⬝ᵥ y) = 1 := by rw [hk, hyy, hone]
    have hdk : (u ⬝ᵥ y) ^ 2 * (4 * π) = d * (u ⬝ᵥ u) := by rw [h1]; field_simp
    -- the part of `u` orthogonal to `y`
    have hr : 0 ≤ (u - (k * (u ⬝ᵥ y)) • y) ⬝ᵥ (u - (k * (u ⬝ᵥ y)) • y) := by
      rw [dotProduct]; exact Finset.sum_nonneg fun i _ => mul_self_nonneg _
    have hre : (u - (k * (u ⬝ᵥ y)) • y) ⬝ᵥ (u - (k * (u ⬝ᵥ y)) • y) = u ⬝ᵥ u - k * (u ⬝ᵥ y) ^ 2 := by
      rw [sub_dotProduct, dotProduct_sub, dotProduct_sub, smul_dotProduct, smul_dotProduct, dotProduct_smul, dotProduct_smul, dotProduct_comm y u]
      simp only [smul_eq_mul]
      linear_combination k * (u ⬝ᵥ y) ^ 2 * hky
    have hkd : k * (u ⬝ᵥ y) ^ 2 * (((N : ℝ) + 1) ^ 2) = d * (u ⬝ᵥ u) := by rw [hk, ← hdk]; field_simp
    rw [hre] at hr
    constructor
    · by_contra hlt
      push Not at hlt
      nlinarith
    · intro hdd
      have hz : (u - (k * (u ⬝ᵥ y)) • y) ⬝ᵥ (u - (k * (u ⬝ᵥ y)) • y) = 0 := by
        rw [hre]
        rw [hdd] at hkd
        have := mul_right_cancel₀ hN.ne' (hkd.trans (mul_comm _ _))
        linarith
      have := dotProduct_self_eq_zero.mp hz
      exact ⟨u ⬝ᵥ y, by rw [← hk, smul_smul, mul_comm, ← sub_eq_zero]; exact this⟩

/-- Non-vacuity: the omnidirectional beam has directivity one, smaller than that of the hyper-cardioid of order one. -/
example : HasDirectivity 1 (Pi.single 0 1) 0 0 1 := by
  have hs : ∀ a z, shVec 1 a z 0 = 1 / √(4 * π) := fun a z => realSH_zero a z
  refine ⟨by rw [beamEnergy_eq]; simp, ?_⟩
  rw [beamEnergy_eq]
  simp only [single_dotProduct, dotProduct_single, one_mul, mul_one, hs]
  rw [div_pow, sq_sqrt (by positivity)]
  simp

/-- **C159**: the directivity of the `"cardioid"` of order `N` is `2N + 1`. -/
theorem C159_cardioid {J : ℕ} (name : List Char) (hn : name.map Char.toLower = "cardioid".toList ∨ name.map Char.toLower = "inphase".toList) (N : ℕ)
    (azi zen : Fin J → ℝ) :
    ∃ W, shBeamformerFromPattern (.name name) N azi zen = .ok W ∧ ∀ j, W j ⬝ᵥ shVec N (azi j) (zen j) = 1 ∧ HasDirectivity N (W j) (azi j) (zen j) (2 * N + 1) := by
  have hp : patternWeights (.name name) N = .ok (cardioidWeights N) := by
    unfold patternWeights
    rcases hn with h | h <;> (simp only [h]; rw [if_neg (by decide), if_pos (by decide)])
  have hl : (cardioidWeights N).length = N + 1 := by simp [cardioidWeights]
  refine ⟨_, beamformer_ok _ N azi zen _ hp hl, fun j => ?_⟩
  obtain ⟨c, hc⟩ : ∃ c : ℕ → ℝ, c = fun n => (cardioidWeights N).getD n 0 := ⟨_, rfl⟩
  rw [← hc]
  -- the response towards another direction
  have hker : ∀ a1 z1 a2 z2 : ℝ, z1 ∈ Set.Icc 0 π → z2 ∈ Set.Icc 0 π → (fun q => repVec N c q * shVec N a1 z1 q) ⬝ᵥ shVec N a2 z2 =
      ((1 + cos (Utils.angleBetween (dirVec a1 z1) (dirVec a2 z2))) / 2) ^ N := by
    intro a1 z1 a2 z2 h1 h2
    have h := C18_kernel N c a1 z1 a2 z2 h1 h2
    rw [hc, ← list_eq_range_map _ N hl, C17_cardioid] at h
    rw [Except.ok.inj h, dotProduct, hc]
    exact Finset.sum_congr rfl fun q _ => by ring
  have hmean : ∀ (w : ℕ → ℝ) (a1 z1 : ℝ), ∑ q, repVec N w q * shVec N a1 z1 q * shVec N a1 z1 q = steeringGain ((List.range (N + 1)).map w) := by
    intro w a1 z1
    rw [shVec_arccos]
    exact C16_steering_meaning N w a1 _ ⟨arccos_nonneg _, arccos_le_pi _⟩
  have hself : ∀ a1 z1 : ℝ, (fun q => repVec N c q * shVec N a1 z1 q) ⬝ᵥ shVec N a1 z1 = 1 := by
    intro a1 z1
    rw [dotProduct, hmean c a1 z1, hc, ← list_eq_range_map _ N hl, C16_cardioid]
  have hen : beamEnergy N (fun q => repVec N c q * shVec N 0 0 q) = 4 * π / (2 * N + 1) := by
    have h0 : (0 : ℝ) ∈ Set.Icc 0 π := ⟨le_rfl, pi_pos.le⟩
    have hz : ∀ a : ℝ, ∫ z in (0 : ℝ)..π, ((fun q => repVec N c q * shVec N 0 0 q) ⬝ᵥ shVec N a z) ^ 2 * sin z = 2 / (2 * N + 1) := by
      intro a
      have e : ∀ z ∈ Set.uIcc 0 π, ((fun q => repVec N c q * shVec N 0 0 q) ⬝ᵥ shVec N a z) ^ 2 * sin z = ((1 + cos z) / 2) ^ (2 * N) * sin z := by
        intro z hz
        rw [Set.uIcc_of_le pi_pos.le] at hz
        rw [hker 0 0 a z h0 hz, cos_angleBetween, ← pow_mul, mul_comm N 2]
        · congr 3
          simp [dirVec, dotProduct, Fin.sum_univ_three]
      rw [intervalIntegral.integral_congr e]
      have hN : (2 * (N : ℝ) + 1) ≠ 0 := by positivity
      rw [intervalIntegral.integral_eq_sub_of_hasDerivAt (f := fun z => -(2 / (2 * N + 1)) * ((1 + cos z) / 2) ^ (2 * N + 1)) (fun z _ => ?_)
        (Continuous.intervalIntegrable (by fun_prop) _ _)]
      · simp
      · have h1 : HasDerivAt (fun z : ℝ => (1 + cos z) / 2) (-sin z / 2) z := ((hasDerivAt_cos z).const_add 1).div_const 2
        have h2 := (h1.pow (2 * N + 1)).const_mul (-(2 / (2 * (N : ℝ) + 1)))
        have h3 : -(2 / (2 * (N : ℝ) + 1)) * (((2 * N + 1 : ℕ) : ℝ) * ((1 + cos z) / 2) ^ (2 * N + 1 - 1) * (-sin z / 2)) = ((1 + cos z) / 2) ^ (2 * N) * sin z := by
          rw [Nat.add_sub_cancel]
          push_cast
          field_simp
        rw [← h3]
        exact h2
    unfold beamEnergy
    simp only [hz]
    rw [intervalIntegral.integral_const]
    simp only [smul_eq_mul]
    ring
  have henj : beamEnergy N (fun q => repVec N c q * shVec N (azi j) (zen j) q) = 4 * π / (2 * N + 1) := by
    rw [← hen, beamEnergy_eq, beamEnergy_eq, dotProduct, dotProduct]
    have e : ∀ a1 z1 : ℝ, ∑ q, repVec N c q * shVec N a1 z1 q * (repVec N c q * shVec N a1 z1 q) = steeringGain ((List.range (N + 1)).map fun n => c n * c n) := by
      intro a1 z1
      rw [← hmean (fun n => c n * c n) a1 z1]
      exact Finset.sum_congr rfl fun q _ => by simp only [repVec]; ring
    rw [e, e]
  refine ⟨hself _ _, by rw [henj]; positivity, ?_⟩
  rw [hself, henj]
  field_simp

example : "InPhase".toList.map Char.toLower = "cardioid".toList ∨ "InPhase".toList.map Char.toLower = "inphase".toList := by decide

/-- If the steering vectors are eigenvectors of the covariance, `sh_mvdr` returns the hyper-cardioids. -/
theorem mvdr_eigen {N g : ℕ} (S : Matrix (Fin ((N + 1) ^ 2)) (Fin ((N + 1) ^ 2)) ℝ) (hS : S.PosDef) (azi zen : Fin g → ℝ)
    (he : ∀ i, ∃ c : ℝ, S *ᵥ shVec N (azi i) (zen i) = c • shVec N (azi i) (zen i)) :
    shMvdr S azi zen = .ok fun i => (4 * π / ((N : ℝ) + 1) ^ 2) • shVec N (azi i) (zen i) := by
  obtain ⟨W, hW, hprop⟩ := C66_mvdr S hS azi zen
  rw [hW]
  congr 1
  funext i
  obtain ⟨h1, h2⟩ := hprop i
  obtain ⟨c, hc⟩ := he i
  obtain ⟨y, hy⟩ : ∃ y, y = shVec N (azi i) (zen i) := ⟨_, rfl⟩
  rw [← hy] at h1 h2 hc ⊢
  have hyy : y ⬝ᵥ y = (N + 1) ^ 2 / (4 * π) := by rw [hy, shVec_norm]
  obtain ⟨k, hk⟩ : ∃ k : ℝ, k = 4 * π / ((N : ℝ) + 1) ^ 2 := ⟨_, rfl⟩
  have hky : k * (y ⬝ᵥ y) = 1 := by rw [hk, hyy]; field_simp
  rw [← hk]
  have hu : (k • y) ⬝ᵥ y = 1 := by rw [smul_dotProduct, smul_eq_mul, hky]
  refine ((h2 (k • y) hu).2 ?_).symm
  refine le_antisymm ?_ (h2 (k • y) hu).1
  -- W = k y + r with r orthogonal to y, and S r is orthogonal to y as well
  obtain ⟨r, hr⟩ : ∃ r, r = W i - k • y := ⟨_, rfl⟩
  have hWi : W i = k • y + r := by rw [hr]; abel
  have hry : r ⬝ᵥ y = 0 := by rw [hr, sub_dotProduct, h1, hu, sub_self]
  have hsym : Sᵀ = S := by rw [← conjTranspose_eq_transpose_of_trivial]; exact hS.isHermitian
  have hrS : r ⬝ᵥ S *ᵥ y = 0 := by rw [hc, dotProduct_smul, hry, smul_zero]
  have hyS : y ⬝ᵥ S *ᵥ r = 0 := by rw [dotProduct_mulVec, ← mulVec_transpose, hsym, dotProduct_comm, hrS]
  have hrr : 0 ≤ r ⬝ᵥ S *ᵥ r := by simpa using hS.posSemidef.dotProduct_mulVec_nonneg r
  rw [hWi]
  simp only [mulVec_add, mulVec_smul, add_dotProduct, dotProduct_add, smul_dotProduct, dotProduct_smul, smul_eq_mul, hrS, hyS]
  linarith

/-- **C159**: in a diffuse sound field (or sensor noise) `sh_mvdr` returns the `"hypercardioid"` beams, whatever the level. -/
theorem C159_mvdr_diffuse {N g : ℕ} (s : ℝ) (hs : 0 < s) (azi zen : Fin g → ℝ) :
    shMvdr (s • (1 : Matrix (Fin ((N + 1) ^ 2)) (Fin ((N + 1) ^ 2)) ℝ)) azi zen = shBeamformerFromPattern (.name "hypercardioid".toList) N azi zen := by
  rw [hyper_ok _ (Or.inl (by decide)), mvdr_eigen _ (PosDef.one.smul hs) azi zen fun i => ⟨s, by rw [smul_mulVec, one_mulVec]⟩]

example : (0 : ℝ) < 1 / 2 := by norm_num

/-- **C159**: adding a source in the steering direction does not change the beam: with a source of energy `p` from there in a diffuse field `sh_mvdr` still returns the
`"hypercardioid"`. -/
theorem C159_mvdr_source {N : ℕ} (s p : ℝ) (hs : 0 < s) (hp : 0 ≤ p) (azi zen : ℝ) :
    shMvdr (s • (1 : Matrix (Fin ((N + 1) ^ 2)) (Fin ((N + 1) ^ 2)) ℝ) + p • vecMulVec (shVec N azi zen) (shVec N azi zen)) (fun _ : Fin 1 => azi) (fun _ => zen)
      = shBeamformerFromPattern (.name "hypercardioid".toList) N (fun _ : Fin 1 => azi) fun _ => zen := by
  rw [hyper_ok _ (Or.inl (by decide)), mvdr_eigen]
  · refine (PosDef.one.smul hs).add_posSemidef (PosSemidef.smul ?_ hp)
    have := posSemidef_vecMulVec_self_star (R := ℝ) (shVec N azi zen)
    simpa using this
  · intro i
    refine ⟨s + p * (shVec N azi zen ⬝ᵥ shVec N azi zen), ?_⟩
    rw [add_mulVec, smul_mulVec, one_mulVec, smul_mulVec, vecMulVec_mulVec, add_smul, mul_smul]
    congr 2
    funext q
    simp [mul_comm]

example : (0 : ℝ) < 1 / 2 ∧ (0 : ℝ) ≤ 3 := by norm_num

/-- **C159**: `sh_lcmv` with the single constraint of unit gain is `sh_mvdr`. -/
theorem C159_lcmv_single {N : ℕ} (S : Matrix (Fin ((N + 1) ^ 2)) (Fin ((N + 1) ^ 2)) ℝ) (hS : S.PosDef) (azi zen : ℝ) :
    ∃ W, shMvdr S (fun _ : Fin 1 => azi) (fun _ => zen) = .ok W ∧ shLcmv S [azi] [zen] [1] = .ok (W 0) := by
  obtain ⟨W, hW, hprop⟩ := C66_mvdr S hS (fun _ : Fin 1 => azi) (fun _ => zen)
  obtain ⟨w, hw, hc, hopt⟩ := C67_lcmv S hS [azi] [zen] [1] rfl rfl (by
    refine (linearIndependent_unique_iff (ι := Fin 1)).2 ?_
    exact shVec_ne_zero N azi zen)
  refine ⟨W, hW, ?_⟩
  rw [hw]
  congr 1
  have h1 : w ⬝ᵥ shVec N azi zen = 1 := hc 0 (by simp)
  obtain ⟨h2, h3⟩ := hprop 0
  obtain ⟨h4, h5⟩ := h3 w h1
  refine h5 (le_antisymm ?_ h4)
  refine (hopt (W 0) fun j hj => ?_).1
  have hj0 : j = 0 := by simpa using hj
  subst hj0
  exact h2

example : (3 • (1 : Matrix (Fin ((1 + 1) ^ 2)) (Fin ((1 + 1) ^ 2)) ℝ)).PosDef := by
  rw [← Nat.cast_smul_eq_nsmul ℝ]
  exact PosDef.one.smul (by norm_num)

end Verif.Props
