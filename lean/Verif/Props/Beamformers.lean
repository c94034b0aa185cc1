import Verif.Proofs.Eigh
import Verif.Props.ShRotation
import Verif.Props.ModalWeights
import Verif.Props.Acn

/-! Beamformers, MUSIC and stereo rendering: C66–C70. -/

namespace Verif.Props
open Parsa Sph Matrix Real

/-! ### Steering vectors -/

/-- The spherical harmonics only depend on the cosine of the zenith. -/
theorem shVec_arccos (N : ℕ) (azi zen : ℝ) : shVec N azi zen = shVec N azi (arccos (cos zen)) := by
  funext q
  have hc : cos (arccos (cos zen)) = cos zen := cos_arccos (neg_one_le_cos zen) (cos_le_one zen)
  unfold shVec realSH sphHarm sphHarmNonneg
  rw [hc]

theorem shVec_norm_pos (N : ℕ) (azi zen : ℝ) : 0 < shVec N azi zen ⬝ᵥ shVec N azi zen := by
  rw [shVec_arccos, C18_row_norm N azi _ ⟨arccos_nonneg _, arccos_le_pi _⟩]
  positivity

theorem shVec_ne_zero (N : ℕ) (azi zen : ℝ) : shVec N azi zen ≠ 0 := by
  intro h
  have := shVec_norm_pos N azi zen
  rw [h] at this
  simp at this

theorem steerMat_ok {g : ℕ} (N : ℕ) (azi zen : Fin g → ℝ) : steerMat ((N + 1) ^ 2) azi zen = .ok (shMat N azi zen) := by
  have hN : (shOrder ((N + 1) ^ 2)).toNat = N := by rw [C11_order_square]; simp
  unfold steerMat
  rw [dif_pos (by rw [hN])]
  congr 1

theorem steerMat_reject {g : ℕ} (L : ℕ) (hL : ∀ N, L ≠ (N + 1) ^ 2) (azi zen : Fin g → ℝ) : steerMat L azi zen = .error .valueError := by
  unfold steerMat
  rw [dif_neg (hL _)]

theorem npInv_ok {L : ℕ} (S : Matrix (Fin L) (Fin L) ℝ) (hS : S.PosDef) : npInv S = .ok S⁻¹ := by
  unfold npInv
  rw [if_neg]
  have := hS.isUnit
  rw [isUnit_iff_isUnit_det] at this
  exact this.ne_zero

theorem mulVec_inv_sym {L : ℕ} (S : Matrix (Fin L) (Fin L) ℝ) (hS : S.PosDef) (x : Fin L → ℝ) : S *ᵥ (x ᵥ* S⁻¹) = x := by
  have hsym : Sᵀ = S := by rw [← conjTranspose_eq_transpose_of_trivial]; exact hS.isHermitian
  have hu : IsUnit S.det := (isUnit_iff_isUnit_det S).mp hS.isUnit
  rw [← mulVec_transpose, transpose_nonsing_inv, hsym, mulVec_mulVec, mul_nonsing_inv S hu, one_mulVec]

/-! ### C66 -/

/-- **C66**: for a positive definite covariance `sh_mvdr` succeeds; every row has unit response in its steering direction, and every other weight
vector with unit response there has strictly larger output variance. -/
theorem C66_mvdr {N g : ℕ} (S : Matrix (Fin ((N + 1) ^ 2)) (Fin ((N + 1) ^ 2)) ℝ) (hS : S.PosDef) (azi zen : Fin g → ℝ) :
    ∃ W, shMvdr S azi zen = .ok W ∧ ∀ i, W i ⬝ᵥ shVec N (azi i) (zen i) = 1 ∧
      ∀ u : Fin ((N + 1) ^ 2) → ℝ, u ⬝ᵥ shVec N (azi i) (zen i) = 1 →
        W i ⬝ᵥ S *ᵥ W i ≤ u ⬝ᵥ S *ᵥ u ∧ (u ⬝ᵥ S *ᵥ u = W i ⬝ᵥ S *ᵥ W i → u = W i) := by
  refine ⟨fun i q => (shMat N azi zen * S⁻¹) i q / (shMat N azi zen * S⁻¹ * (shMat N azi zen)ᵀ) i i, ?_, fun i => ?_⟩
  · unfold shMvdr
    rw [dif_pos rfl]
    change (npInv S).bind _ = _
    rw [npInv_ok S hS]
    change (steerMat ((N + 1) ^ 2) azi zen).map _ = _
    rw [steerMat_ok]
    rfl
  · set y := shVec N (azi i) (zen i) with hy
    set a := (shMat N azi zen * S⁻¹ * (shMat N azi zen)ᵀ) i i with ha
    have hrow : (shMat N azi zen * S⁻¹) i = y ᵥ* S⁻¹ := rfl
    have ha' : a = (y ᵥ* S⁻¹) ⬝ᵥ y := rfl
    have hpos : 0 < a := by
      rw [ha', ← dotProduct_mulVec]
      have := hS.inv.dotProduct_mulVec_pos (x := y) (shVec_ne_zero _ _ _)
      simpa using this
    have hW : (fun q => (shMat N azi zen * S⁻¹) i q / a) = a⁻¹ • (y ᵥ* S⁻¹) := by
      funext q; rw [hrow]; simp [div_eq_inv_mul]
    change (fun q => (shMat N azi zen * S⁻¹) i q / a) ⬝ᵥ y = 1 ∧ ∀ u : Fin ((N + 1) ^ 2) → ℝ, u ⬝ᵥ y = 1 →
      (fun q => (shMat N azi zen * S⁻¹) i q / a) ⬝ᵥ S *ᵥ (fun q => (shMat N azi zen * S⁻¹) i q / a) ≤ u ⬝ᵥ S *ᵥ u ∧
      (u ⬝ᵥ S *ᵥ u = (fun q => (shMat N azi zen * S⁻¹) i q / a) ⬝ᵥ S *ᵥ (fun q => (shMat N azi zen * S⁻¹) i q / a) →
        u = fun q => (shMat N azi zen * S⁻¹) i q / a)
    rw [hW]
    have hone : (a⁻¹ • (y ᵥ* S⁻¹)) ⬝ᵥ y = 1 := by
      rw [smul_dotProduct, ← ha', smul_eq_mul, inv_mul_cancel₀ hpos.ne']
    refine ⟨hone, fun u hu => ?_⟩
    refine min_variance S hS (fun q (_ : Fin 1) => y q) _ (fun _ => a⁻¹) ?_ u ?_
    · rw [mulVec_smul, mulVec_inv_sym S hS]
      funext q
      simp [mulVec, dotProduct, mul_comm]
    · funext j
      change u ⬝ᵥ y = (a⁻¹ • (y ᵥ* S⁻¹)) ⬝ᵥ y
      rw [hu, hone]

/-- A positive definite covariance of first order. -/
example : (2 • (1 : Matrix (Fin ((1 + 1) ^ 2)) (Fin ((1 + 1) ^ 2)) ℝ)).PosDef := by
  rw [← Nat.cast_smul_eq_nsmul ℝ]
  exact PosDef.one.smul (by norm_num)

/-- **C66**: covariances that are not square, singular, or of a size that is no number of SH channels are rejected. -/
theorem C66_reject {g : ℕ} (azi zen : Fin g → ℝ) :
    (∀ (L M : ℕ) (S : Matrix (Fin L) (Fin M) ℝ), L ≠ M → shMvdr S azi zen = .error .assertionError) ∧
    (∀ (L : ℕ) (S : Matrix (Fin L) (Fin L) ℝ), S.det = 0 → shMvdr S azi zen = .error .linAlgError) ∧
    (∀ (L : ℕ) (S : Matrix (Fin L) (Fin L) ℝ), S.det ≠ 0 → (∀ N, L ≠ (N + 1) ^ 2) → shMvdr S azi zen = .error .valueError) := by
  refine ⟨fun L M S h => by unfold shMvdr; rw [dif_neg h], fun L S h => ?_, fun L S h hL => ?_⟩
  · unfold shMvdr
    rw [dif_pos rfl]
    change (npInv S).bind _ = _
    rw [npInv, if_pos h]
    rfl
  · unfold shMvdr
    rw [dif_pos rfl]
    change (npInv S).bind _ = _
    rw [npInv, if_neg h]
    change (steerMat L azi zen).map _ = _
    rw [steerMat_reject L hL]
    rfl

/-- Two channels are no complete SH order, and the zero matrix is singular. -/
example : (∀ N : ℕ, 2 ≠ (N + 1) ^ 2) ∧ (0 : Matrix (Fin 4) (Fin 4) ℝ).det = 0 := by
  refine ⟨fun N h => ?_, by simp⟩
  rcases N with _ | N
  · norm_num at h
  · have : 0 ≤ N * N := Nat.zero_le _
    ring_nf at h
    nlinarith

/-! ### C67 -/

theorem lcmv_eq {N : ℕ} (S : Matrix (Fin ((N + 1) ^ 2)) (Fin ((N + 1) ^ 2)) ℝ) (hS : S.PosDef) (azi zen gain : List ℝ)
    (h1 : azi.length = zen.length) (h2 : azi.length = gain.length) :
    shLcmv S azi zen gain = (npInv (shMat N (fun i : Fin azi.length => azi.getD i 0) (fun i => zen.getD i 0) * S⁻¹ *
      (shMat N (fun i : Fin azi.length => azi.getD i 0) (fun i => zen.getD i 0))ᵀ)).map fun G =>
        (((fun i : Fin azi.length => gain.getD i 0) ᵥ* G) ᵥ* shMat N (fun i : Fin azi.length => azi.getD i 0) (fun i => zen.getD i 0)) ᵥ* S⁻¹ := by
  unfold shLcmv
  rw [dif_pos rfl, if_neg (by simpa using h1), if_neg (by simpa using h2)]
  change (npInv S).bind _ = _
  rw [npInv_ok S hS]
  change (steerMat ((N + 1) ^ 2) (fun i : Fin azi.length => azi.getD i 0) (fun i => zen.getD i 0)).bind _ = _
  rw [steerMat_ok]
  rfl

/-- **C67**: for a positive definite covariance and linearly independent steering vectors `sh_lcmv` returns weights that meet every constraint, and
every other weight vector meeting them has strictly larger output variance. -/
theorem C67_lcmv {N : ℕ} (S : Matrix (Fin ((N + 1) ^ 2)) (Fin ((N + 1) ^ 2)) ℝ) (hS : S.PosDef) (azi zen gain : List ℝ)
    (h1 : azi.length = zen.length) (h2 : azi.length = gain.length)
    (hli : LinearIndependent ℝ fun j : Fin azi.length => shVec N (azi.getD j 0) (zen.getD j 0)) :
    ∃ w, shLcmv S azi zen gain = .ok w ∧ (∀ j < azi.length, w ⬝ᵥ shVec N (azi.getD j 0) (zen.getD j 0) = gain.getD j 0) ∧
      ∀ u : Fin ((N + 1) ^ 2) → ℝ, (∀ j < azi.length, u ⬝ᵥ shVec N (azi.getD j 0) (zen.getD j 0) = gain.getD j 0) →
        w ⬝ᵥ S *ᵥ w ≤ u ⬝ᵥ S *ᵥ u ∧ (u ⬝ᵥ S *ᵥ u = w ⬝ᵥ S *ᵥ w → u = w) := by
  set Y := shMat N (fun i : Fin azi.length => azi.getD i 0) (fun i => zen.getD i 0) with hY
  set c : Fin azi.length → ℝ := fun i => gain.getD i 0 with hc
  have hinj : Function.Injective (Yᵀ).mulVec := by
    rw [mulVec_injective_iff]
    exact hli
  have hG : (Y * S⁻¹ * Yᵀ).PosDef := by
    have := hS.inv.conjTranspose_mul_mul_same hinj
    rwa [conjTranspose_eq_transpose_of_trivial, transpose_transpose] at this
  have hGu : IsUnit (Y * S⁻¹ * Yᵀ).det := (isUnit_iff_isUnit_det _).mp hG.isUnit
  refine ⟨((c ᵥ* (Y * S⁻¹ * Yᵀ)⁻¹) ᵥ* Y) ᵥ* S⁻¹, ?_, ?_⟩
  · rw [lcmv_eq S hS azi zen gain h1 h2, npInv_ok _ hG]
    rfl
  · have hmeet : (((c ᵥ* (Y * S⁻¹ * Yᵀ)⁻¹) ᵥ* Y) ᵥ* S⁻¹) ᵥ* Yᵀ = c := by
      rw [vecMul_vecMul _ S⁻¹, vecMul_vecMul _ Y, vecMul_vecMul, ← Matrix.mul_assoc Y, nonsing_inv_mul _ hGu, vecMul_one]
    refine ⟨fun j hj => congrFun hmeet ⟨j, hj⟩, fun u hu => ?_⟩
    refine min_variance S hS Yᵀ _ (c ᵥ* (Y * S⁻¹ * Yᵀ)⁻¹) ?_ u ?_
    · rw [mulVec_inv_sym S hS, mulVec_transpose]
    · rw [hmeet]
      funext j
      exact hu j j.2

theorem shVec_pair (N : ℕ) (a1 z1 a2 z2 : ℝ) (h : (shVec N a1 z1 ⬝ᵥ shVec N a2 z2) ^ 2 ≠ (shVec N a1 z1 ⬝ᵥ shVec N a1 z1) * (shVec N a2 z2 ⬝ᵥ shVec N a2 z2)) :
    LinearIndependent ℝ ![shVec N a1 z1, shVec N a2 z2] := by
  rw [LinearIndependent.pair_iff]
  intro s t hst
  have e1 := congrArg (· ⬝ᵥ shVec N a1 z1) hst
  have e2 := congrArg (· ⬝ᵥ shVec N a2 z2) hst
  simp only [add_dotProduct, smul_dotProduct, zero_dotProduct, smul_eq_mul] at e1 e2
  rw [dotProduct_comm (shVec N a2 z2) (shVec N a1 z1)] at e1
  set A := shVec N a1 z1 ⬝ᵥ shVec N a1 z1
  set B := shVec N a1 z1 ⬝ᵥ shVec N a2 z2
  set C := shVec N a2 z2 ⬝ᵥ shVec N a2 z2
  have hD : A * C - B ^ 2 ≠ 0 := fun h0 => h (by linarith)
  constructor
  · have : s * (A * C - B ^ 2) = 0 := by linear_combination C * e1 - B * e2
    exact (mul_eq_zero.mp this).resolve_right hD
  · have : t * (A * C - B ^ 2) = 0 := by linear_combination A * e2 - B * e1
    exact (mul_eq_zero.mp this).resolve_right hD

/-- The steering vectors of opposite directions are linearly independent in first order. -/
example : LinearIndependent ℝ ![shVec 1 0 0, shVec 1 0 π] := by
  refine shVec_pair 1 0 0 0 π ?_
  have h0 : (0 : ℝ) ∈ Set.Icc 0 π := ⟨le_rfl, pi_pos.le⟩
  have hp : π ∈ Set.Icc 0 π := ⟨pi_pos.le, le_rfl⟩
  rw [C18_row_norm 1 0 0 h0, C18_row_norm 1 0 π hp]
  have h := C18_kernel_default 1 0 0 0 π h0 hp
  have hang : cos (Utils.angleBetween (dirVec 0 0) (dirVec 0 π)) = -1 := by
    rw [cos_angleBetween]
    · simp [dirVec, dotProduct, Fin.sum_univ_three]
    all_goals simp [dirVec, dotProduct, Fin.sum_univ_three]
  unfold bandlimitedDirac at h
  simp [Finset.sum_range_succ, hang, evalLegendre, legPoly] at h
  rw [← h]
  have := pi_pos
  intro hh
  field_simp at hh
  norm_num at hh

/-- **C67**: linearly dependent constraint directions raise `LinAlgError`. -/
theorem C67_dependent {N : ℕ} (S : Matrix (Fin ((N + 1) ^ 2)) (Fin ((N + 1) ^ 2)) ℝ) (hS : S.PosDef) (azi zen gain : List ℝ)
    (h1 : azi.length = zen.length) (h2 : azi.length = gain.length)
    (hli : ¬ LinearIndependent ℝ fun j : Fin azi.length => shVec N (azi.getD j 0) (zen.getD j 0)) :
    shLcmv S azi zen gain = .error .linAlgError := by
  rw [lcmv_eq S hS azi zen gain h1 h2]
  set Y := shMat N (fun i : Fin azi.length => azi.getD i 0) (fun i => zen.getD i 0) with hY
  have hdet : (Y * S⁻¹ * Yᵀ).det = 0 := by
    have hinj : ¬ Function.Injective (Yᵀ).mulVec := by
      rw [mulVec_injective_iff]
      exact hli
    rw [← exists_mulVec_eq_zero_iff]
    by_contra hno
    apply hinj
    intro x y hxy
    by_contra hne
    refine hno ⟨x - y, sub_ne_zero.mpr hne, ?_⟩
    rw [← mulVec_mulVec, mulVec_sub, hxy, sub_self, mulVec_zero]
  rw [npInv, if_pos hdet]
  rfl

/-- The same direction twice. -/
example : ¬ LinearIndependent ℝ ![shVec 1 0 0, shVec 1 0 0] := by
  rw [LinearIndependent.pair_iff]
  intro h
  have := h 1 (-1) (by simp)
  norm_num at this

/-- **C67**: mismatched list lengths and covariances that are not square raise `AssertionError`. -/
theorem C67_reject {L M : ℕ} (S : Matrix (Fin L) (Fin M) ℝ) (azi zen gain : List ℝ)
    (h : L ≠ M ∨ azi.length ≠ zen.length ∨ azi.length ≠ gain.length) : shLcmv S azi zen gain = .error .assertionError := by
  unfold shLcmv
  split_ifs with h0 h1 h2
  · rfl
  · rfl
  · rcases h with h | h | h <;> contradiction
  · rfl

example : (1 : ℕ) ≠ 2 ∨ ([] : List ℝ).length ≠ [0].length ∨ ([] : List ℝ).length ≠ [0].length := by decide

/-! ### C68 -/

theorem list_eq_range_map (c : List ℝ) (N : ℕ) (hc : c.length = N + 1) : c = (List.range (N + 1)).map fun n => c.getD n 0 := by
  refine List.ext_getElem (by simp [hc]) fun i h1 h2 => ?_
  simp [List.getElem?_eq_getElem h1]

theorem beamformer_ok {J : ℕ} (p : Pattern) (N : ℕ) (azi zen : Fin J → ℝ) (c : List ℝ) (hp : patternWeights p N = .ok c) (hc : c.length = N + 1) :
    shBeamformerFromPattern p N azi zen = .ok fun j q => repVec N (fun n => c.getD n 0) q * shVec N (azi j) (zen j) q := by
  unfold shBeamformerFromPattern
  rw [hp]
  change (if c.length = N + 1 then _ else _) = _
  rw [if_pos hc]
  congr 1
  funext j q
  congr 1
  conv_lhs => rw [list_eq_range_map c N hc, C10_repeatPerOrder_vector]
  rw [List.getD_eq_getElem?_getD, List.getElem?_eq_getElem (by simp)]
  simp

/-- **C68**: beamforming plane waves: every beam receives each source with the pattern evaluated at the angle between steering and source
direction. -/
theorem C68_plane_wave {J K T : ℕ} (p : Pattern) (N : ℕ) (azi zen : Fin J → ℝ) (sAzi sZen : Fin K → ℝ) (s : Matrix (Fin K) (Fin T) ℝ) (c : List ℝ)
    (hp : patternWeights p N = .ok c) (hc : c.length = N + 1) (hz : ∀ j, zen j ∈ Set.Icc 0 π) (hs : ∀ k, sZen k ∈ Set.Icc 0 π) :
    ∃ W y, shBeamformerFromPattern p N azi zen = .ok W ∧ shBeamform W (srcToSh s sAzi sZen N) = .ok y ∧
      ∀ j t, y j t = ∑ k, (∑ n ∈ Finset.range (N + 1), c.getD n 0 * (2 * n + 1) / (4 * π) *
        evalLegendre n (cos (Utils.angleBetween (dirVec (azi j) (zen j)) (dirVec (sAzi k) (sZen k))))) * s k t := by
  refine ⟨_, _, beamformer_ok p N azi zen c hp hc, by unfold shBeamform; rw [dif_pos rfl], fun j t => ?_⟩
  have hk : ∀ k, ∑ n ∈ Finset.range (N + 1), c.getD n 0 * (2 * n + 1) / (4 * π) *
      evalLegendre n (cos (Utils.angleBetween (dirVec (azi j) (zen j)) (dirVec (sAzi k) (sZen k)))) =
      ∑ q, shVec N (azi j) (zen j) q * repVec N (fun n => c.getD n 0) q * shVec N (sAzi k) (sZen k) q := by
    intro k
    have h := C18_kernel N (fun n => c.getD n 0) (azi j) (zen j) (sAzi k) (sZen k) (hz j) (hs k)
    rw [← list_eq_range_map c N hc] at h
    unfold bandlimitedDirac at h
    rw [Option.getD_some, if_pos hc] at h
    exact Except.ok.inj h
  simp only [hk]
  change ∑ q, (repVec N (fun n => c.getD n 0) q * shVec N (azi j) (zen j) q) * (srcToSh s sAzi sZen N) q t = _
  unfold srcToSh
  simp only [mul_apply, transpose_apply, Finset.mul_sum, Finset.sum_mul]
  rw [Finset.sum_comm]
  refine Finset.sum_congr rfl fun k _ => Finset.sum_congr rfl fun q _ => ?_
  change _ * (shVec N (sAzi k) (sZen k) q * s k t) = _
  ring

example : ∃ c, patternWeights (.name "Cardioid".toList) 3 = .ok c ∧ c.length = 3 + 1 := by
  refine ⟨cardioidWeights 3, ?_, by simp [cardioidWeights]⟩
  have : "Cardioid".toList.map Char.toLower = "cardioid".toList := by decide
  unfold patternWeights
  simp only [this]
  rw [if_neg (by decide), if_pos (by decide)]

/-- The documented pattern names, up to case (`parsa.py` 66-71). -/
def KnownPattern (s : List Char) : Prop :=
  s.map Char.toLower ∈ ["hypercardioid", "max_di", "cardioid", "inphase", "max_re", "maxre"].map String.toList

theorem known_weights (s : List Char) (hs : KnownPattern s) (N : ℕ) : ∃ c, patternWeights (.name s) N = .ok c ∧ c.length = N + 1 ∧ steeringGain c = 1 := by
  unfold patternWeights
  by_cases h1 : s.map Char.toLower = "hypercardioid".toList ∨ s.map Char.toLower = "max_di".toList
  · exact ⟨hypercardioidWeights N, by simp only [if_pos h1], by simp [hypercardioidWeights], C16_hypercardioid N⟩
  by_cases h2 : s.map Char.toLower = "cardioid".toList ∨ s.map Char.toLower = "inphase".toList
  · exact ⟨cardioidWeights N, by simp only [if_neg h1, if_pos h2], by simp [cardioidWeights], C16_cardioid N⟩
  have h3 : s.map Char.toLower = "max_re".toList ∨ s.map Char.toLower = "maxre".toList := by
    unfold KnownPattern at hs
    simp only [List.map_cons, List.map_nil, List.mem_cons, List.not_mem_nil, or_false] at hs
    tauto
  obtain ⟨w, hw, hl, hg⟩ := C16_maxre N
  exact ⟨w, by simp only [if_neg h1, if_neg h2, if_pos h3]; exact hw, hl, hg⟩

/-- **C68**: with each built-in pattern (whatever its capitalisation) a beam steered at a source returns exactly the source signal. -/
theorem C68_on_axis {T : ℕ} (name : List Char) (hn : KnownPattern name) (N : ℕ) (azi zen : ℝ) (hz : zen ∈ Set.Icc 0 π) (s : Fin T → ℝ) :
    ∃ W y, shBeamformerFromPattern (J := 1) (.name name) N (fun _ => azi) (fun _ => zen) = .ok W ∧
      shBeamform W (srcToSh (fun (_ : Fin 1) t => s t) (fun _ => azi) (fun _ => zen) N) = .ok y ∧ ∀ t, y 0 t = s t := by
  obtain ⟨c, hp, hc, hg⟩ := known_weights name hn N
  refine ⟨_, _, beamformer_ok (.name name) N _ _ c hp hc, by unfold shBeamform; rw [dif_pos rfl], fun t => ?_⟩
  have h := C16_steering_meaning N (fun n => c.getD n 0) azi zen hz
  rw [← list_eq_range_map c N hc, hg] at h
  change ∑ q, (repVec N (fun n => c.getD n 0) q * shVec N azi zen q) * (srcToSh (fun (_ : Fin 1) t => s t) (fun _ => azi) (fun _ => zen) N) q t = _
  have hsrc : ∀ q, (srcToSh (fun (_ : Fin 1) t => s t) (fun _ => azi) (fun _ => zen) N) q t = shVec N azi zen q * s t := by
    intro q
    change ∑ k : Fin 1, shVec N azi zen q * s t = _
    simp
  simp only [hsrc]
  calc ∑ q, repVec N (fun n => c.getD n 0) q * shVec N azi zen q * (shVec N azi zen q * s t)
      = (∑ q, repVec N (fun n => c.getD n 0) q * shVec N azi zen q * shVec N azi zen q) * s t := by
        rw [Finset.sum_mul]; exact Finset.sum_congr rfl fun q _ => by ring
    _ = s t := by rw [h, one_mul]

example : KnownPattern "Max_rE".toList := by unfold KnownPattern; decide

/-- **C68**: other names raise `ValueError`, weights of the wrong number `AssertionError`, signals of another order `ValueError`. -/
theorem C68_reject {J : ℕ} (N : ℕ) (azi zen : Fin J → ℝ) :
    (∀ s, ¬ KnownPattern s → shBeamformerFromPattern (.name s) N azi zen = .error .valueError) ∧
    (∀ c : List ℝ, c.length ≠ N + 1 → shBeamformerFromPattern (.weights c) N azi zen = .error .assertionError) ∧
    (∀ (K K' T : ℕ) (W : Matrix (Fin J) (Fin K) ℝ) (X : Matrix (Fin K') (Fin T) ℝ), K ≠ K' → shBeamform W X = .error .valueError) := by
  refine ⟨fun s hs => ?_, fun c hc => ?_, fun K K' T W X h => by unfold shBeamform; rw [dif_neg h]⟩
  · unfold KnownPattern at hs
    simp only [List.map_cons, List.map_nil, List.mem_cons, List.not_mem_nil, or_false, not_or] at hs
    obtain ⟨h1, h2, h3, h4, h5, h6⟩ := hs
    unfold shBeamformerFromPattern patternWeights
    simp only [h1, h2, h3, h4, h5, h6, or_self, if_false]
    rfl
  · unfold shBeamformerFromPattern patternWeights
    change (if c.length = N + 1 then _ else _) = _
    rw [if_neg hc]

example : ¬ KnownPattern "omni".toList := by unfold KnownPattern; decide

/-! ### C69 -/

theorem music_eq (eigh) {N g : ℕ} (S : Matrix (Fin ((N + 1) ^ 2)) (Fin ((N + 1) ^ 2)) ℝ) (k : ℤ) (azi zen : Fin g → ℝ) :
    shMusic eigh S k azi zen = .ok fun j => 1 / ((∑ i : Fin (min (sliceBound ((N + 1) ^ 2) (-k)) ((N + 1) ^ 2)),
      ((fun q => (eigh ((N + 1) ^ 2) S).2 q (Fin.castLE (min_le_right _ _) i)) ⬝ᵥ shVec N (azi j) (zen j)) *
      ((fun q => (eigh ((N + 1) ^ 2) S).2 q (Fin.castLE (min_le_right _ _) i)) ⬝ᵥ shVec N (azi j) (zen j))) + 10e-12) := by
  unfold shMusic
  rw [dif_pos rfl, steerMat_ok]
  rfl

/-- **C69**: every value of the MUSIC spectrum is positive and at most `1 / 10e-12`, for every covariance, number of sources and direction. -/
theorem C69_bounds (eigh) {N g : ℕ} (S : Matrix (Fin ((N + 1) ^ 2)) (Fin ((N + 1) ^ 2)) ℝ) (k : ℤ) (azi zen : Fin g → ℝ) :
    ∃ P, shMusic eigh S k azi zen = .ok P ∧ ∀ j, 0 < P j ∧ P j ≤ 1 / 10e-12 := by
  refine ⟨_, music_eq eigh S k azi zen, fun j => ?_⟩
  have h : 0 ≤ ∑ i : Fin (min (sliceBound ((N + 1) ^ 2) (-k)) ((N + 1) ^ 2)),
      ((fun q => (eigh ((N + 1) ^ 2) S).2 q (Fin.castLE (min_le_right _ _) i)) ⬝ᵥ shVec N (azi j) (zen j)) *
      ((fun q => (eigh ((N + 1) ^ 2) S).2 q (Fin.castLE (min_le_right _ _) i)) ⬝ᵥ shVec N (azi j) (zen j)) :=
    Finset.sum_nonneg fun i _ => mul_self_nonneg _
  constructor
  · positivity
  · exact one_div_le_one_div_of_le (by norm_num) (by linarith)

theorem inv_max_iff (s : ℝ) (hs : 0 ≤ s) : 1 / (s + 10e-12) = 1 / 10e-12 ↔ s = 0 := by
  rw [div_eq_div_iff (by positivity) (by norm_num)]
  constructor
  · intro h; linarith
  · rintro rfl; ring

/-- The maximum is attained exactly where the steering vector is orthogonal to the first `L - k` eigenvectors. -/
theorem music_max_iff (eigh) {N g : ℕ} (S : Matrix (Fin ((N + 1) ^ 2)) (Fin ((N + 1) ^ 2)) ℝ) (k : ℕ) (hk : 1 ≤ k) (azi zen : Fin g → ℝ) :
    ∃ P, shMusic eigh S k azi zen = .ok P ∧ ∀ j, P j = 1 / 10e-12 ↔
      ∀ i : Fin ((N + 1) ^ 2), (i : ℕ) + k < (N + 1) ^ 2 → (fun q => (eigh ((N + 1) ^ 2) S).2 q i) ⬝ᵥ shVec N (azi j) (zen j) = 0 := by
  refine ⟨_, music_eq eigh S k azi zen, fun j => ?_⟩
  have hcut : min (sliceBound ((N + 1) ^ 2) (-(k : ℤ))) ((N + 1) ^ 2) = (N + 1) ^ 2 - k := by
    unfold sliceBound
    rw [if_pos (by omega)]
    omega
  rw [inv_max_iff _ (Finset.sum_nonneg fun i _ => mul_self_nonneg _), Finset.sum_eq_zero_iff_of_nonneg fun i _ => mul_self_nonneg _]
  constructor
  · intro h i hi
    have := h ⟨i, by rw [hcut]; omega⟩ (Finset.mem_univ _)
    exact mul_self_eq_zero.mp this
  · intro h i _
    have hi : (i : ℕ) < (N + 1) ^ 2 - k := lt_of_lt_of_eq i.2 hcut
    exact mul_self_eq_zero.mpr (h (Fin.castLE (min_le_right _ _) i) (by simp; omega))

/-- **C69** (value): the spectrum is the inverse of the energy that the steering vector has in the first `L - k` eigenvectors, which is what is left of its energy
`L/4π` after the `k` last ones; so no value is below `1 / (L/4π + 10e-12)`. -/
theorem C69_value (eigh) {N g : ℕ} (S : Matrix (Fin ((N + 1) ^ 2)) (Fin ((N + 1) ^ 2)) ℝ)
    (he : IsEigh S (eigh _ S).1 (eigh _ S).2) (k : ℕ) (h1 : 1 ≤ k) (azi zen : Fin g → ℝ) :
    ∃ P, shMusic eigh S k azi zen = .ok P ∧ ∀ j,
      P j = 1 / ((∑ i : Fin ((N + 1) ^ 2), if (i : ℕ) + k < (N + 1) ^ 2 then ((fun q => (eigh _ S).2 q i) ⬝ᵥ shVec N (azi j) (zen j)) ^ 2 else 0) + 10e-12) ∧
      P j = 1 / ((N + 1) ^ 2 / (4 * π)
        - (∑ i : Fin ((N + 1) ^ 2), if (N + 1) ^ 2 ≤ (i : ℕ) + k then ((fun q => (eigh _ S).2 q i) ⬝ᵥ shVec N (azi j) (zen j)) ^ 2 else 0) + 10e-12) ∧
      1 / ((N + 1) ^ 2 / (4 * π) + 10e-12) ≤ P j := by
  have hcut : min (sliceBound ((N + 1) ^ 2) (-(k : ℤ))) ((N + 1) ^ 2) = (N + 1) ^ 2 - k := by
    unfold sliceBound
    rw [if_pos (by omega)]
    omega
  refine ⟨_, music_eq eigh S k azi zen, fun j => ?_⟩
  obtain ⟨-, horth, -⟩ := he
  set v := (eigh ((N + 1) ^ 2) S).2
  set y := shVec N (azi j) (zen j)
  set f : Fin ((N + 1) ^ 2) → ℝ := fun i => ((fun q => v q i) ⬝ᵥ y) ^ 2 with hf
  have hsum : ∑ i : Fin (min (sliceBound ((N + 1) ^ 2) (-(k : ℤ))) ((N + 1) ^ 2)),
      ((fun q => v q (Fin.castLE (min_le_right _ _) i)) ⬝ᵥ y) * ((fun q => v q (Fin.castLE (min_le_right _ _) i)) ⬝ᵥ y)
      = ∑ i : Fin ((N + 1) ^ 2), if (i : ℕ) + k < (N + 1) ^ 2 then f i else 0 := by
    rw [← Finset.sum_filter]
    refine Finset.sum_bij (fun i _ => Fin.castLE (min_le_right _ _) i) (fun i _ => ?_) (fun i _ i' _ h => ?_) (fun i hi => ?_) (fun i _ => ?_)
    · have hi : (i : ℕ) < (N + 1) ^ 2 - k := lt_of_lt_of_eq i.2 hcut
      rw [Finset.mem_filter]
      exact ⟨Finset.mem_univ _, by simp; omega⟩
    · exact Fin.ext (by simpa using congrArg Fin.val h)
    · rw [Finset.mem_filter] at hi
      exact ⟨⟨i, by rw [hcut]; omega⟩, Finset.mem_univ _, rfl⟩
    · rw [hf]; ring
  have htot : ∑ i, f i = (N + 1) ^ 2 / (4 * π) := by
    have hv : v * vᵀ = 1 := mul_eq_one_comm.mp horth
    have e1 : ∑ i, f i = (vᵀ *ᵥ y) ⬝ᵥ (vᵀ *ᵥ y) := Finset.sum_congr rfl fun i _ => by rw [hf]; exact sq _
    rw [e1, dotProduct_mulVec, vecMul_transpose, mulVec_mulVec, hv, one_mulVec]
    show shVec N (azi j) (zen j) ⬝ᵥ shVec N (azi j) (zen j) = _
    rw [shVec_arccos, C18_row_norm N _ _ ⟨arccos_nonneg _, arccos_le_pi _⟩]
  have hsplit : (∑ i : Fin ((N + 1) ^ 2), if (i : ℕ) + k < (N + 1) ^ 2 then f i else 0)
      + (∑ i : Fin ((N + 1) ^ 2), if (N + 1) ^ 2 ≤ (i : ℕ) + k then f i else 0) = (N + 1) ^ 2 / (4 * π) := by
    rw [← htot, ← Finset.sum_add_distrib]
    refine Finset.sum_congr rfl fun i _ => ?_
    by_cases h : (i : ℕ) + k < (N + 1) ^ 2
    · rw [if_pos h, if_neg (by omega), add_zero]
    · rw [if_neg h, if_pos (by omega), zero_add]
  have hn1 : 0 ≤ ∑ i : Fin ((N + 1) ^ 2), if (i : ℕ) + k < (N + 1) ^ 2 then f i else 0 :=
    Finset.sum_nonneg fun i _ => by split <;> [exact sq_nonneg _; exact le_rfl]
  have hn2 : 0 ≤ ∑ i : Fin ((N + 1) ^ 2), if (N + 1) ^ 2 ≤ (i : ℕ) + k then f i else 0 :=
    Finset.sum_nonneg fun i _ => by split <;> [exact sq_nonneg _; exact le_rfl]
  beta_reduce
  rw [hsum]
  refine ⟨rfl, ?_, ?_⟩
  · rw [← hsplit, add_sub_cancel_right]
  · exact one_div_le_one_div_of_le (by positivity) (by linarith)

/-- `C69_value`: eigenvalues 0 to 3, two sources. -/
example (azi zen : Fin 5 → ℝ) : ∃ P, shMusic (fun _ _ => (fun i => (i : ℕ), 1)) (diagonal fun i : Fin ((1 + 1) ^ 2) => ((i : ℕ) : ℝ)) (2 : ℕ) azi zen = .ok P ∧
    ∀ j, 1 / (1 / π + 10e-12) ≤ P j := by
  obtain ⟨P, hP, h⟩ := C69_value (fun _ _ => (fun i => (i : ℕ), 1)) (N := 1) (diagonal fun i => ((i : ℕ) : ℝ))
    ⟨fun i k h => by simpa using h, by simp, by simp⟩ 2 (by norm_num) azi zen
  refine ⟨P, hP, fun j => ?_⟩
  have := (h j).2.2
  rwa [show (((1 : ℕ) : ℝ) + 1) ^ 2 / (4 * π) = 1 / π by have := pi_pos; field_simp; norm_num] at this

/-- **C69** (partial): for at least one and fewer than `L` sources, with a gap between the `k` largest eigenvalues and the others, the maximum is
attained exactly in directions whose steering vector is orthogonal to the noise subspace, i.e. to all eigenvectors whose eigenvalue is below the `k`-th
largest one.  Missing: zero sources (`C69_zero_sources_fails`). -/
theorem C69_maximum_partial (eigh) {N g : ℕ} (S : Matrix (Fin ((N + 1) ^ 2)) (Fin ((N + 1) ^ 2)) ℝ)
    (he : IsEigh S (eigh _ S).1 (eigh _ S).2) (k : ℕ) (h1 : 1 ≤ k) (h2 : k < (N + 1) ^ 2)
    (hgap : (eigh _ S).1 ⟨(N + 1) ^ 2 - k - 1, by omega⟩ < (eigh _ S).1 ⟨(N + 1) ^ 2 - k, by omega⟩) (azi zen : Fin g → ℝ) :
    ∃ P, shMusic eigh S k azi zen = .ok P ∧ ∀ j, P j = 1 / 10e-12 ↔
      ∀ (x : Fin ((N + 1) ^ 2) → ℝ) (μ : ℝ), S *ᵥ x = μ • x → μ < (eigh _ S).1 ⟨(N + 1) ^ 2 - k, by omega⟩ → x ⬝ᵥ shVec N (azi j) (zen j) = 0 := by
  obtain ⟨P, hP, hmax⟩ := music_max_iff eigh S k h1 azi zen
  refine ⟨P, hP, fun j => (hmax j).trans ?_⟩
  obtain ⟨hmono, horth, hdec⟩ := he
  set w := (eigh ((N + 1) ^ 2) S).1
  set v := (eigh ((N + 1) ^ 2) S).2
  have horth' : v * vᵀ = 1 := mul_eq_one_comm.mp horth
  constructor
  · intro h x μ hx hμ
    -- coordinates of `x` in the eigenbasis
    have hcoord : ∀ i, (w i - μ) * (vᵀ *ᵥ x) i = 0 := by
      intro i
      have e : vᵀ *ᵥ (S *ᵥ x) = diagonal w *ᵥ (vᵀ *ᵥ x) := by
        conv_lhs => rw [hdec]
        rw [mulVec_mulVec, mulVec_mulVec, Matrix.mul_assoc, ← Matrix.mul_assoc, horth, Matrix.one_mul]
      rw [hx, mulVec_smul] at e
      have := congrFun e i
      rw [mulVec_diagonal, Pi.smul_apply, smul_eq_mul] at this
      linarith
    have hx2 : x = v *ᵥ (vᵀ *ᵥ x) := by rw [mulVec_mulVec, horth', one_mulVec]
    rw [hx2, dotProduct_comm, dotProduct_mulVec]
    refine Finset.sum_eq_zero fun i _ => ?_
    by_cases hi : (i : ℕ) + k < (N + 1) ^ 2
    · have := h i hi
      rw [dotProduct_comm] at this
      change (shVec N (azi j) (zen j) ⬝ᵥ fun q => v q i) * _ = 0
      rw [this, zero_mul]
    · have hle : w ⟨(N + 1) ^ 2 - k, by omega⟩ ≤ w i := hmono (by rw [Fin.le_def]; simp; omega)
      have : (vᵀ *ᵥ x) i = 0 := (mul_eq_zero.mp (hcoord i)).resolve_left (by linarith)
      rw [this, mul_zero]
  · intro h i hi
    refine h _ (w i) ?_ ?_
    · have e : S * v = v * diagonal w := by
        conv_lhs => rw [hdec]
        rw [Matrix.mul_assoc, Matrix.mul_assoc, horth, Matrix.mul_one]
      funext q
      have := congrFun (congrFun e q) i
      rw [mul_diagonal] at this
      change (S * v) q i = w i * v q i
      rw [this, mul_comm]
    · exact lt_of_le_of_lt (hmono (by rw [Fin.le_def]; simp; omega)) hgap

/-- A spectrum with a gap: one strong eigenvalue. -/
example : IsEigh (diagonal ![1, 1, 1, 2] : Matrix (Fin ((1 + 1) ^ 2)) (Fin ((1 + 1) ^ 2)) ℝ) ![1, 1, 1, 2] 1 ∧ (![1, 1, 1, 2] : Fin 4 → ℝ) ⟨4 - 1 - 1, by omega⟩ < (![1, 1, 1, 2] : Fin 4 → ℝ) ⟨4 - 1, by omega⟩ := by
  refine ⟨⟨?_, by simp, by simp⟩, by norm_num⟩
  refine Fin.monotone_iff_le_succ.mpr fun i => ?_
  fin_cases i <;> simp

/-- **C69** fails for zero sources: `v[:, :-0]` is empty, so every direction gets the maximal value, although the noise subspace is the whole space and
no steering vector is orthogonal to it. -/
theorem C69_zero_sources_fails (eigh) {N g : ℕ} (S : Matrix (Fin ((N + 1) ^ 2)) (Fin ((N + 1) ^ 2)) ℝ) (azi zen : Fin g → ℝ) :
    ∃ P, shMusic eigh S 0 azi zen = .ok P ∧ ∀ j, P j = 1 / 10e-12 ∧ ∃ x : Fin ((N + 1) ^ 2) → ℝ, x ⬝ᵥ shVec N (azi j) (zen j) ≠ 0 := by
  refine ⟨_, music_eq eigh S 0 azi zen, fun j => ⟨?_, shVec N (azi j) (zen j), (shVec_norm_pos N _ _).ne'⟩⟩
  rw [inv_max_iff _ (Finset.sum_nonneg fun i _ => mul_self_nonneg _)]
  refine Finset.sum_eq_zero fun i _ => ?_
  exact absurd i.2 (by simp [sliceBound])

/-- **C69**: rejected covariances. -/
theorem C69_reject (eigh) {g : ℕ} (azi zen : Fin g → ℝ) (k : ℤ) :
    (∀ (L M : ℕ) (S : Matrix (Fin L) (Fin M) ℝ), L ≠ M → shMusic eigh S k azi zen = .error .assertionError) ∧
    (∀ (L : ℕ) (S : Matrix (Fin L) (Fin L) ℝ), (∀ N, L ≠ (N + 1) ^ 2) → shMusic eigh S k azi zen = .error .valueError) := by
  refine ⟨fun L M S h => by unfold shMusic; rw [dif_neg h], fun L S hL => ?_⟩
  unfold shMusic
  rw [dif_pos rfl, steerMat_reject L hL]
  rfl

/-! ### C70 -/

/-- **C70**: with equally many pressures and directions, each ear receives the pressure times a gain in `[0, 1]` which only depends on the azimuth, and the
two responses add up to the pressure.  The gain of the left ear is one for directions at the left, one half in front, increases from right to left, is the same in
front and behind, and that of the right ear for the mirrored direction. -/
theorem C70_stereo (p phi theta : List ℝ) (h1 : p.length = phi.length) (h2 : p.length = theta.length) :
    ∃ g : ℝ → ℝ, (∀ a, 0 ≤ g a ∧ g a ≤ 1 ∧ g a = (1 + sin a) / 2) ∧ g (π / 2) = 1 ∧ g 0 = 1 / 2 ∧ StrictMonoOn g (Set.Icc (-(π / 2)) (π / 2)) ∧ (∀ a, g (π - a) = g a) ∧
      (∀ a, g (-a) = 1 - g a) ∧ renderStereoSdm p phi theta = (List.zipWith (fun x a => x * g a) p phi, List.zipWith (fun x a => x * (1 - g a)) p phi) ∧
      List.zipWith (· + ·) (renderStereoSdm p phi theta).1 (renderStereoSdm p phi theta).2 = p := by
  have key : renderStereoSdm p phi theta = (List.zipWith (fun x a => x * ((1 + sin a) / 2)) p phi, List.zipWith (fun x a => x * (1 - (1 + sin a) / 2)) p phi) := by
    unfold renderStereoSdm
    induction p generalizing phi theta with
    | nil => cases phi <;> cases theta <;> simp [stereoLoop]
    | cons x xs ih =>
      cases phi with
      | nil => simp at h1
      | cons a phi =>
        cases theta with
        | nil => simp at h2
        | cons b theta =>
          have := ih phi theta (by simpa using h1) (by simpa using h2)
          rw [Prod.mk.injEq] at this
          simp only [stereoLoop, List.map_cons, this.1, this.2, List.zipWith_cons_cons, Prod.mk.injEq, List.cons.injEq, and_true]
          rw [cos_sub_pi_div_two, cos_add_pi_div_two]
          constructor <;> ring
  refine ⟨fun a => (1 + sin a) / 2, fun a => ?_, by norm_num, by norm_num, fun a ha b hb hab => ?_, fun a => by simp only [sin_pi_sub], fun a => ?_, key, ?_⟩
  · have := neg_one_le_sin a; have := sin_le_one a
    exact ⟨by linarith, by linarith, rfl⟩
  · have := strictMonoOn_sin ha hb hab
    dsimp only; linarith
  · simp only [sin_neg]; ring
  · rw [key]
    refine List.ext_getElem (by simp [h1]) fun i hi1 hi2 => ?_
    simp only [List.getElem_zipWith]
    ring

example : ([1, 2] : List ℝ).length = ([0, π] : List ℝ).length := rfl

/-- **C70**: samples without a direction (shorter direction lists) are silent in both responses. -/
theorem C70_missing_directions (p phi theta : List ℝ) (i : ℕ) (hi : i < p.length) (h : phi.length ≤ i ∨ theta.length ≤ i) :
    (renderStereoSdm p phi theta).1.getD i 1 = 0 ∧ (renderStereoSdm p phi theta).2.getD i 1 = 0 := by
  have key : (stereoLoop p phi theta)[i]? = some (0, 0) := by
    induction p generalizing phi theta i with
    | nil => simp at hi
    | cons x xs ih =>
      cases phi with
      | nil =>
        unfold stereoLoop
        rw [List.getElem?_map, List.getElem?_eq_getElem hi]; rfl
      | cons a phi =>
        cases theta with
        | nil =>
          unfold stereoLoop
          rw [List.getElem?_map, List.getElem?_eq_getElem hi]; rfl
        | cons b theta =>
          cases i with
          | zero => simp at h
          | succ i =>
            simp only [stereoLoop, List.getElem?_cons_succ]
            exact ih phi theta i (by simpa using hi) (by simpa using h)
  unfold renderStereoSdm
  simp [List.getD_eq_getElem?_getD, key]

example : (1 : ℕ) < ([1, 2] : List ℝ).length ∧ ([0] : List ℝ).length ≤ 1 := by simp

end Verif.Props
