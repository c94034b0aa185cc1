import Verif.Props.Truncated
import Verif.Props.Beamformers
import Verif.Props.Covariance
import Verif.Props.PseudoIntensity
import Mathlib.Tactic

/-!
C145: the analysis turns with the sound field. Beamformers, MUSIC, the separation of covariances and the pseudo intensity give for a turned or mirrored sound field and
turned or mirrored directions what they give for the original.
-/

namespace Verif.Props
open Real Matrix Verif.Utils Verif.Decoder Verif.Sph Verif.Parsa

/-- The channels of a moved sound field (`T`) and moved directions: `T` is orthogonal, does not mix orders, and the harmonics in the new directions are the moved ones. -/
structure Moves {N g : ℕ} (T : Matrix (Fin ((N + 1) ^ 2)) (Fin ((N + 1) ^ 2)) ℝ) (azi zen azi' zen' : Fin g → ℝ) : Prop where
  orth : T.transpose * T = 1
  blocks : ∀ q r : Fin ((N + 1) ^ 2), acnOrder q ≠ acnOrder r → T q r = 0
  steer : shMat N azi' zen' = shMat N azi zen * T.transpose

theorem Moves.orth' {N g : ℕ} {T : Matrix (Fin ((N + 1) ^ 2)) (Fin ((N + 1) ^ 2)) ℝ} {azi zen azi' zen' : Fin g → ℝ} (h : Moves T azi zen azi' zen') : T * T.transpose = 1 :=
  mul_eq_one_comm.1 h.orth

theorem moves_turn {N g : ℕ} (hN : 1 ≤ N) (yaw pitch roll : ℝ) : ∃ T : Matrix (Fin ((N + 1) ^ 2)) (Fin ((N + 1) ^ 2)) ℝ,
    (∀ azi zen azi' zen' : Fin g → ℝ, (∀ j, zen j ∈ Set.Icc 0 π) → (∀ j, zen' j ∈ Set.Icc 0 π) →
      (∀ j, dirVec (azi' j) (zen' j) = (rotationEuler yaw pitch roll).mulVec (dirVec (azi j) (zen j))) → Moves T azi zen azi' zen') ∧
    ∀ (S : ℕ) (F : Matrix (Fin S) (Fin ((N + 1) ^ 2)) ℝ), rotateSh ⟨S, (N + 1) ^ 2, F⟩ yaw pitch roll .real = .ok ⟨S, (N + 1) ^ 2, F * T.transpose⟩ := by
  obtain ⟨M, hM, hr⟩ := C19_rotation N hN yaw pitch roll
  obtain ⟨M', hM', ho', ho⟩ := C20_orthogonal N hN yaw pitch roll
  rw [hM] at hM'
  have hMM : M = M' := eq_of_heq (NpMat.mk.inj (Except.ok.inj hM')).2.2
  subst hMM
  rw [shRotationMatrix_eq N hN] at hM
  have hRe : blockE (rotationEuler yaw pitch roll) ((N + 1) ^ 2) (N + 1) = M := eq_of_heq (NpMat.mk.inj (Except.ok.inj hM)).2.2
  refine ⟨M, fun azi zen azi' zen' hz hz' hd => ⟨ho, fun q r hqr => ?_, ?_⟩, fun S F => by rw [rotateSh_eq N S hN, hRe]⟩
  · rw [← hRe]
    unfold blockE
    rw [if_neg (fun h => hqr h.1)]
  · ext j q
    have := congrFun (hr _ _ _ _ (hz j) (hz' j) (hd j)) q
    show shVec N _ _ q = _
    rw [← this, Matrix.mul_apply]
    show ∑ i, M q i * shVec N _ _ i = _
    exact Finset.sum_congr rfl fun i _ => mul_comm (M q i) (shVec N _ _ i)

theorem moves_mirror {N g : ℕ} (c : Fin 3) (azi zen : Fin g → ℝ) :
    Moves (Matrix.diagonal fun q : Fin ((N + 1) ^ 2) => mirrorSign c (acnOrder q) (acnDegree q)) azi zen (fun j => (mirrorDir c (azi j) (zen j)).1)
      fun j => (mirrorDir c (azi j) (zen j)).2 := by
  refine ⟨?_, fun q r h => Matrix.diagonal_apply_ne _ fun e => h (by rw [e]), ?_⟩
  · rw [Matrix.diagonal_transpose, Matrix.diagonal_mul_diagonal, ← Matrix.diagonal_one]
    congr 1
    funext q
    exact mirrorSign_sq c _ _
  · ext j q
    rw [Matrix.diagonal_transpose, Matrix.mul_diagonal, mul_comm]
    exact C143_harmonics c _ _ _ _

/-! ### Beamformers -/

theorem beams_moved {N g S : ℕ} {T : Matrix (Fin ((N + 1) ^ 2)) (Fin ((N + 1) ^ 2)) ℝ} {azi zen azi' zen' : Fin g → ℝ} (h : Moves T azi zen azi' zen')
    (p : Pattern) (X : Matrix (Fin ((N + 1) ^ 2)) (Fin S) ℝ) :
    (shBeamformerFromPattern p N azi' zen').bind (shBeamform · (T * X)) = (shBeamformerFromPattern p N azi zen).bind (shBeamform · X) := by
  rcases hp : patternWeights p N with e | c
  · unfold shBeamformerFromPattern; rw [hp]; rfl
  by_cases hc : c.length = N + 1
  · rw [beamformer_ok p N azi' zen' c hp hc, beamformer_ok p N azi zen c hp hc]
    change shBeamform _ _ = shBeamform _ _
    unfold shBeamform
    rw [dif_pos rfl, dif_pos rfl]
    congr 1
    obtain ⟨D, hD⟩ : ∃ D : Fin ((N + 1) ^ 2) → ℝ, D = repVec N fun n => c.getD n 0 := ⟨_, rfl⟩
    have hord : ∀ q r : Fin ((N + 1) ^ 2), acnOrder q = acnOrder r → D q = D r := by
      intro q r hqr
      rw [hD]
      unfold repVec
      rw [hqr]
    have hcomm : T.transpose * Matrix.diagonal D = Matrix.diagonal D * T.transpose := by
      ext q r
      rw [Matrix.mul_diagonal, Matrix.diagonal_mul, Matrix.transpose_apply]
      by_cases e : acnOrder r = acnOrder q
      · rw [hord r q e, mul_comm]
      · rw [h.blocks r q e]; ring
    have hW : ∀ az ze : Fin g → ℝ, (fun (j : Fin g) (q : Fin ((N + 1) ^ 2)) => repVec N (fun n => c.getD n 0) q * shVec N (az j) (ze j) q) = shMat N az ze * Matrix.diagonal D := by
      intro az ze
      ext j q
      rw [Matrix.mul_diagonal, hD, mul_comm]
      rfl
    rw [hW, hW, h.steer, Matrix.mul_assoc (shMat N azi zen), hcomm, ← Matrix.mul_assoc (shMat N azi zen)]
    change shMat N azi zen * Matrix.diagonal D * T.transpose * (T * X) = _ * X
    rw [Matrix.mul_assoc _ T.transpose, ← Matrix.mul_assoc T.transpose, h.orth, Matrix.one_mul]
  · unfold shBeamformerFromPattern
    rw [hp]
    change (if c.length = N + 1 then _ else _ : Py _).bind _ = (if c.length = N + 1 then _ else _ : Py _).bind _
    rw [if_neg hc, if_neg hc]
    rfl

theorem npInv_moved {L : ℕ} {T : Matrix (Fin L) (Fin L) ℝ} (h : T.transpose * T = 1) (C : Matrix (Fin L) (Fin L) ℝ) :
    npInv (T * C * T.transpose) = (npInv C).map fun I => T * I * T.transpose := by
  have h' := mul_eq_one_comm.1 h
  have hd : T.det * T.det = 1 := by
    have := congrArg Matrix.det h
    rwa [Matrix.det_mul, Matrix.det_transpose, Matrix.det_one] at this
  have hdet : (T * C * T.transpose).det = C.det := by
    rw [Matrix.det_mul, Matrix.det_mul, Matrix.det_transpose]
    linear_combination C.det * hd
  unfold npInv
  rw [hdet]
  split_ifs with hc
  · rfl
  · change _ = Except.ok _
    congr 1
    have hu : IsUnit C.det := isUnit_iff_ne_zero.2 hc
    refine Matrix.inv_eq_right_inv ?_
    calc T * C * T.transpose * (T * C⁻¹ * T.transpose) = T * C * (T.transpose * T) * C⁻¹ * T.transpose := by simp only [Matrix.mul_assoc]
      _ = 1 := by rw [h, Matrix.mul_one, Matrix.mul_assoc T, Matrix.mul_nonsing_inv _ hu, Matrix.mul_one, h']

theorem mvdr_moved {N g : ℕ} {T : Matrix (Fin ((N + 1) ^ 2)) (Fin ((N + 1) ^ 2)) ℝ} {azi zen azi' zen' : Fin g → ℝ} (h : Moves T azi zen azi' zen')
    (C : Matrix (Fin ((N + 1) ^ 2)) (Fin ((N + 1) ^ 2)) ℝ) :
    shMvdr (T * C * T.transpose) azi' zen' = (shMvdr C azi zen).map (· * T.transpose) := by
  unfold shMvdr
  rw [dif_pos rfl, dif_pos rfl]
  change (npInv (T * C * T.transpose)).bind _ = ((npInv C).bind _).map _
  rw [npInv_moved h.orth]
  rcases npInv C with e | I
  · rfl
  · change (steerMat _ azi' zen').map _ = ((steerMat _ azi zen).map _).map _
    rw [steerMat_ok, steerMat_ok]
    change Except.ok _ = Except.ok _
    congr 1
    have e1 : shMat N azi' zen' * (T * I * T.transpose) = shMat N azi zen * I * T.transpose := by
      rw [h.steer]
      calc shMat N azi zen * T.transpose * (T * I * T.transpose) = shMat N azi zen * (T.transpose * T) * I * T.transpose := by simp only [Matrix.mul_assoc]
        _ = _ := by rw [h.orth, Matrix.mul_one]
    have e2 : shMat N azi' zen' * (T * I * T.transpose) * (shMat N azi' zen').transpose = shMat N azi zen * I * (shMat N azi zen).transpose := by
      rw [e1, h.steer, Matrix.transpose_mul, Matrix.transpose_transpose, Matrix.mul_assoc, ← Matrix.mul_assoc T.transpose, h.orth, Matrix.one_mul]
    funext i q
    show (shMat N azi' zen' * (T * I * T.transpose)) i q / (shMat N azi' zen' * (T * I * T.transpose) * (shMat N azi' zen').transpose) i i = _
    rw [e2, e1, Matrix.mul_apply, Matrix.mul_apply, Finset.sum_div]
    exact Finset.sum_congr rfl fun k _ => div_mul_eq_mul_div _ _ _ |>.symm

/-- `sh_lcmv` for directions given as functions. -/
theorem lcmv_fn {N g : ℕ} (C : Matrix (Fin ((N + 1) ^ 2)) (Fin ((N + 1) ^ 2)) ℝ) (azi zen gain : Fin g → ℝ) :
    shLcmv C (List.ofFn azi) (List.ofFn zen) (List.ofFn gain) = (npInv C).bind fun I => (npInv (shMat N azi zen * I * (shMat N azi zen).transpose)).map fun G =>
      Matrix.vecMul (Matrix.vecMul (Matrix.vecMul gain G) (shMat N azi zen)) I := by
  have key : ∀ {n : ℕ} (hn : n = g) (a z k : Fin n → ℝ), (∀ i, a i = azi (Fin.cast hn i)) → (∀ i, z i = zen (Fin.cast hn i)) → (∀ i, k i = gain (Fin.cast hn i)) →
      ∀ I : Matrix (Fin ((N + 1) ^ 2)) (Fin ((N + 1) ^ 2)) ℝ,
      ((npInv (shMat N a z * I * (shMat N a z).transpose)).map fun G => Matrix.vecMul (Matrix.vecMul (Matrix.vecMul k G) (shMat N a z)) I) =
      (npInv (shMat N azi zen * I * (shMat N azi zen).transpose)).map fun G => Matrix.vecMul (Matrix.vecMul (Matrix.vecMul gain G) (shMat N azi zen)) I := by
    intro n hn a z k ha hz hk I
    subst hn
    rw [show a = azi from funext ha, show z = zen from funext hz, show k = gain from funext hk]
  unfold shLcmv
  rw [dif_pos rfl, if_neg (by simp), if_neg (by simp)]
  change (npInv C).bind _ = _
  rcases npInv C with e | I
  · rfl
  · change (steerMat ((N + 1) ^ 2) _ _).bind _ = (npInv _).map _
    rw [steerMat_ok]
    refine Eq.trans ?_ (key (List.length_ofFn (f := azi)) (fun i => (List.ofFn azi).getD i 0) (fun i => (List.ofFn zen).getD i 0) (fun i => (List.ofFn gain).getD i 0) ?_ ?_ ?_ I)
    · rfl
    all_goals
      intro i
      have hi : (i : ℕ) < g := by have := i.2; simpa using this
      simp [List.getD_eq_getElem?_getD, hi]
      rfl

theorem lcmv_moved {N g : ℕ} {T : Matrix (Fin ((N + 1) ^ 2)) (Fin ((N + 1) ^ 2)) ℝ} {azi zen azi' zen' : Fin g → ℝ} (h : Moves T azi zen azi' zen')
    (C : Matrix (Fin ((N + 1) ^ 2)) (Fin ((N + 1) ^ 2)) ℝ) (gain : Fin g → ℝ) :
    shLcmv (T * C * T.transpose) (List.ofFn azi') (List.ofFn zen') (List.ofFn gain) =
      (shLcmv C (List.ofFn azi) (List.ofFn zen) (List.ofFn gain)).map fun w => Matrix.vecMul w T.transpose := by
  rw [lcmv_fn, lcmv_fn, npInv_moved h.orth]
  rcases npInv C with e | I
  · rfl
  · change (npInv (shMat N azi' zen' * (T * I * T.transpose) * (shMat N azi' zen').transpose)).map _ = ((npInv _).map _).map _
    have e1 : shMat N azi' zen' * (T * I * T.transpose) = shMat N azi zen * I * T.transpose := by
      rw [h.steer]
      calc shMat N azi zen * T.transpose * (T * I * T.transpose) = shMat N azi zen * (T.transpose * T) * I * T.transpose := by simp only [Matrix.mul_assoc]
        _ = _ := by rw [h.orth, Matrix.mul_one]
    have e2 : shMat N azi' zen' * (T * I * T.transpose) * (shMat N azi' zen').transpose = shMat N azi zen * I * (shMat N azi zen).transpose := by
      rw [e1, h.steer, Matrix.transpose_mul, Matrix.transpose_transpose, Matrix.mul_assoc, ← Matrix.mul_assoc T.transpose, h.orth, Matrix.one_mul]
    rw [e2]
    rcases npInv (shMat N azi zen * I * (shMat N azi zen).transpose) with e | G
    · rfl
    · change Except.ok _ = Except.ok _
      congr 1
      simp only [Matrix.vecMul_vecMul]
      rw [Matrix.mul_assoc G, e1]
      simp only [Matrix.mul_assoc]

/-! ### Eigenvalue decompositions -/

theorem eigh_moved_values {L : ℕ} {T C v v' : Matrix (Fin L) (Fin L) ℝ} {w w' : Fin L → ℝ} (h : T.transpose * T = 1) (he : IsEigh C w v)
    (he' : IsEigh (T * C * T.transpose) w' v') : w' = w := by
  refine eq_of_prod _ _ he'.mono he.mono ?_
  have ho : (T * v).transpose * (T * v) = 1 := by
    rw [Matrix.transpose_mul, Matrix.mul_assoc, ← Matrix.mul_assoc T.transpose, h, Matrix.one_mul, he.orth]
  rw [← charpoly_conj v' w' he'.orth, ← he'.decomp, ← charpoly_conj (T * v) w ho, Matrix.transpose_mul]
  congr 1
  conv_lhs => rw [he.decomp]
  simp only [Matrix.mul_assoc]

/-- A function of the eigenvalues moves with the matrix. -/
theorem eigh_moved_fun {L : ℕ} {T C v v' : Matrix (Fin L) (Fin L) ℝ} {w : Fin L → ℝ} (h : T.transpose * T = 1) (he : IsEigh C w v)
    (he' : IsEigh (T * C * T.transpose) w v') (f : Fin L → ℝ) (hf : ∀ i j, w i = w j → f i = f j) :
    v' * Matrix.diagonal f * v'.transpose = T * (v * Matrix.diagonal f * v.transpose) * T.transpose := by
  obtain ⟨u, hu⟩ : ∃ u, u = T * v := ⟨_, rfl⟩
  have ho : u.transpose * u = 1 := by
    rw [hu, Matrix.transpose_mul, Matrix.mul_assoc, ← Matrix.mul_assoc T.transpose, h, Matrix.one_mul, he.orth]
  have ho' : u * u.transpose = 1 := mul_eq_one_comm.1 ho
  have hdec : v' * Matrix.diagonal w * v'.transpose = u * Matrix.diagonal w * u.transpose := by
    rw [← he'.decomp, hu, Matrix.transpose_mul]
    conv_lhs => rw [he.decomp]
    simp only [Matrix.mul_assoc]
  have hM : Matrix.diagonal w * (v'.transpose * u) = v'.transpose * u * Matrix.diagonal w := by
    calc Matrix.diagonal w * (v'.transpose * u) = v'.transpose * (v' * Matrix.diagonal w * v'.transpose) * u := by
          rw [← Matrix.mul_assoc, ← Matrix.mul_assoc, ← Matrix.mul_assoc, he'.orth, Matrix.one_mul]
      _ = v'.transpose * u * Matrix.diagonal w * (u.transpose * u) := by rw [hdec]; simp only [Matrix.mul_assoc]
      _ = _ := by rw [ho, Matrix.mul_one]
  have hF : Matrix.diagonal f * (v'.transpose * u) = v'.transpose * u * Matrix.diagonal f := by
    ext i j
    have := congrFun (congrFun hM i) j
    rw [Matrix.diagonal_mul, Matrix.mul_diagonal] at this ⊢
    by_cases e : w i = w j
    · rw [hf i j e, mul_comm]
    · have h0 : (v'.transpose * u) i j = 0 := by
        have : (w i - w j) * (v'.transpose * u) i j = 0 := by linear_combination this
        exact (mul_eq_zero.1 this).resolve_left (sub_ne_zero.2 e)
      rw [h0]; ring
  calc v' * Matrix.diagonal f * v'.transpose = v' * (Matrix.diagonal f * (v'.transpose * u)) * u.transpose := by
        rw [Matrix.mul_assoc v', Matrix.mul_assoc v', Matrix.mul_assoc (Matrix.diagonal f), Matrix.mul_assoc v'.transpose, ho', Matrix.mul_one]
    _ = v' * v'.transpose * (u * Matrix.diagonal f * u.transpose) := by rw [hF]; simp only [Matrix.mul_assoc]
    _ = _ := by rw [he'.orth', Matrix.one_mul, hu, Matrix.transpose_mul]; simp only [Matrix.mul_assoc]

theorem split_respects {L : ℕ} {w : Fin L → ℝ} (hw : Monotone w) {k : ℤ} {wr : ℝ} (h : npIndex w (-(k + 1)) = .ok wr) (i j : Fin L) (hij : w i = w j) :
    (if sliceBound L (-k) ≤ (i : ℕ) then wr else w i) = if sliceBound L (-k) ≤ (j : ℕ) then wr else w j := by
  have key : ∀ i j : Fin L, w i = w j → (i : ℕ) < sliceBound L (-k) → sliceBound L (-k) ≤ (j : ℕ) → w i = wr := by
    intro i j hij hi hj
    unfold npIndex at h
    have hi2 := i.2
    have hj2 := j.2
    split_ifs at h with h1 h2
    · have hc : sliceBound L (-k) = (-(k + 1)).toNat + 1 := by unfold sliceBound at hi hj ⊢; split_ifs at hi hj ⊢ <;> omega
      rw [← Except.ok.inj h]
      rw [hc] at hi hj
      refine le_antisymm (hw (Fin.mk_le_mk.2 (by omega))) ?_
      rw [hij]
      exact hw (Fin.mk_le_mk.2 (by omega))
    · have hc : sliceBound L (-k) = ((L : ℤ) + -(k + 1)).toNat + 1 := by unfold sliceBound at hi hj ⊢; split_ifs at hi hj ⊢ <;> omega
      rw [← Except.ok.inj h]
      rw [hc] at hi hj
      refine le_antisymm (hw (Fin.mk_le_mk.2 (by omega))) ?_
      rw [hij]
      exact hw (Fin.mk_le_mk.2 (by omega))
  split_ifs with h1 h2 h2
  · rfl
  · exact (key j i hij.symm (by omega) h1).symm
  · exact key i j hij (by omega) h2
  · exact hij

theorem split_moved {L : ℕ} {T C v v' : Matrix (Fin L) (Fin L) ℝ} {w : Fin L → ℝ} (h : T.transpose * T = 1) (he : IsEigh C w v)
    (he' : IsEigh (T * C * T.transpose) w v') (k : ℤ) :
    splitCov w v' k = (splitCov w v k).map fun p => (T * p.1 * T.transpose, T * p.2 * T.transpose) := by
  have s1 := splitCov_sum he k
  have s2 := splitCov_sum he' k
  unfold splitCov at s1 s2 ⊢
  rcases hq : npIndex w (-(k + 1)) with e | wr
  · rfl
  · rw [hq] at s1 s2
    have hn := eigh_moved_fun h he he' _ (split_respects he.mono hq)
    have a1 := s1 _ _ rfl
    have a2 := s2 _ _ rfl
    change Except.ok _ = Except.ok _
    congr 1
    refine Prod.ext ?_ hn
    rw [← eq_sub_iff_add_eq] at a1 a2
    refine a2.trans (Eq.trans ?_ (congrArg (fun M => T * M * T.transpose) a1).symm)
    show _ = T * (_ - _) * _
    rw [Matrix.mul_sub, Matrix.sub_mul, ← hn]

theorem separate_moved (eigh) {L : ℕ} {T C : Matrix (Fin L) (Fin L) ℝ} (h : T.transpose * T = 1) (he : EighOf eigh C) (he' : EighOf eigh (T * C * T.transpose)) (k : Option ℤ) :
    separateCov eigh (T * C * T.transpose) k = (separateCov eigh C k).map fun p => (T * p.1 * T.transpose, T * p.2 * T.transpose) := by
  have hw := eigh_moved_values h he he'
  unfold EighOf at he'
  unfold separateCov
  rw [dif_pos rfl, dif_pos rfl]
  cases k with
  | some k =>
    change splitCov (eigh L (T * C * T.transpose)).1 _ k = (splitCov (eigh L C).1 _ k).map _
    rw [hw] at he' ⊢
    exact split_moved h he he' k
  | none =>
    change (estimateNumSources (List.ofFn (eigh L (T * C * T.transpose)).1) none).bind (splitCov (eigh L (T * C * T.transpose)).1 _) =
      ((estimateNumSources (List.ofFn (eigh L C).1) none).bind (splitCov (eigh L C).1 _)).map _
    rw [hw] at he' ⊢
    rcases estimateNumSources (List.ofFn (eigh L C).1) none with e | k
    · rfl
    · exact split_moved h he he' k

theorem music_moved (eigh eigh') {N g : ℕ} {T C : Matrix (Fin ((N + 1) ^ 2)) (Fin ((N + 1) ^ 2)) ℝ} {azi zen azi' zen' : Fin g → ℝ} (h : Moves T azi zen azi' zen')
    (he : EighOf eigh C) (he' : EighOf eigh' (T * C * T.transpose)) (k : ℤ)
    (hg : ∀ i j : Fin ((N + 1) ^ 2), (i : ℕ) < sliceBound ((N + 1) ^ 2) (-k) → sliceBound ((N + 1) ^ 2) (-k) ≤ (j : ℕ) → (eigh _ C).1 i ≠ (eigh _ C).1 j) :
    shMusic eigh' (T * C * T.transpose) k azi' zen' = shMusic eigh C k azi zen := by
  have hw := eigh_moved_values h.orth he he'
  unfold EighOf at he'
  rw [hw] at he'
  rw [music_eq, music_eq]
  congr 1
  funext j
  congr 2
  have key : ∀ (v : Matrix (Fin ((N + 1) ^ 2)) (Fin ((N + 1) ^ 2)) ℝ) (y : Fin ((N + 1) ^ 2) → ℝ),
      ∑ i : Fin (min (sliceBound ((N + 1) ^ 2) (-k)) ((N + 1) ^ 2)), ((fun q => v q (Fin.castLE (min_le_right _ _) i)) ⬝ᵥ y) * ((fun q => v q (Fin.castLE (min_le_right _ _) i)) ⬝ᵥ y) =
      y ⬝ᵥ (v * Matrix.diagonal (fun i : Fin ((N + 1) ^ 2) => if (i : ℕ) < sliceBound ((N + 1) ^ 2) (-k) then 1 else 0) * v.transpose).mulVec y := by
    intro v y
    rw [← Matrix.mulVec_mulVec, ← Matrix.mulVec_mulVec, Matrix.dotProduct_mulVec, ← Matrix.mulVec_transpose]
    have e1 : ∀ i, (v.transpose.mulVec y) i = (fun q => v q i) ⬝ᵥ y := fun i => rfl
    rw [dotProduct]
    simp only [Matrix.mulVec_diagonal, e1]
    rw [← Finset.sum_subset (Finset.subset_univ (Finset.univ.map (Fin.castLEEmb (min_le_right (sliceBound ((N + 1) ^ 2) (-k)) ((N + 1) ^ 2))))), Finset.sum_map]
    · refine Finset.sum_congr rfl fun i _ => ?_
      show _ = ((fun q => v q (Fin.castLE (min_le_right _ _) i)) ⬝ᵥ y) *
        ((if (i : ℕ) < sliceBound ((N + 1) ^ 2) (-k) then 1 else 0) * ((fun q => v q (Fin.castLE (min_le_right _ _) i)) ⬝ᵥ y))
      rw [if_pos (lt_of_lt_of_le i.2 (min_le_left _ _)), one_mul]
    · intro i _ hi
      rw [if_neg, zero_mul, mul_zero]
      intro hlt
      exact hi (Finset.mem_map.2 ⟨⟨i, lt_min hlt i.2⟩, Finset.mem_univ _, Fin.ext rfl⟩)
  have hy : shVec N (azi' j) (zen' j) = T.mulVec (shVec N (azi j) (zen j)) := by
    funext q
    have := congrFun (congrFun h.steer j) q
    rw [Matrix.mul_apply] at this
    refine this.trans ?_
    exact Finset.sum_congr rfl fun i _ => mul_comm (shMat N azi zen j i) (T q i)
  rw [key, key, eigh_moved_fun h.orth he he' _ ?_, hy]
  · rw [Matrix.mulVec_mulVec, Matrix.mul_assoc, h.orth, Matrix.mul_one, ← Matrix.mulVec_mulVec, Matrix.dotProduct_mulVec, ← Matrix.mulVec_transpose, Matrix.mulVec_mulVec,
      h.orth, Matrix.one_mulVec]
  · intro i j hij
    have h1 := hg i j
    have h2 := hg j i
    split_ifs with a b b
    · rfl
    · exact absurd hij (h1 a (by omega))
    · exact absurd hij.symm (h2 b (by omega))
    · rfl

/-! ### The claim -/

/-- A covariance estimate of signals with one channel per row: some multiple of `X Xᵀ`, possibly with diagonal loading. -/
noncomputable def covOf {K S : ℕ} (X : Matrix (Fin K) (Fin S) ℝ) (α σ : ℝ) : Matrix (Fin K) (Fin K) ℝ := α • (X * X.transpose) + σ • 1

/-- The analysis of `X'` in the directions `azi' zen'` gives what the analysis of `X` gives in the directions `azi zen`. -/
structure SameAnalysis (eigh : (n : ℕ) → Matrix (Fin n) (Fin n) ℝ → (Fin n → ℝ) × Matrix (Fin n) (Fin n) ℝ) {N S g : ℕ} (X X' : Matrix (Fin ((N + 1) ^ 2)) (Fin S) ℝ)
    (azi zen azi' zen' : Fin g → ℝ) : Prop where
  /-- The signals of pattern beamformers, or the error raised. -/
  beams : ∀ p : Pattern, (shBeamformerFromPattern p N azi' zen').bind (shBeamform · X') = (shBeamformerFromPattern p N azi zen).bind (shBeamform · X)
  /-- The signals of MVDR beamformers. -/
  mvdr : ∀ α σ : ℝ, (shMvdr (covOf X' α σ) azi' zen').bind (shBeamform · X') = (shMvdr (covOf X α σ) azi zen).bind (shBeamform · X)
  /-- The signal of an LCMV beamformer. -/
  lcmv : ∀ (α σ : ℝ) (gain : Fin g → ℝ), (shLcmv (covOf X' α σ) (List.ofFn azi') (List.ofFn zen') (List.ofFn gain)).map (fun w => Matrix.vecMul w X') =
    (shLcmv (covOf X α σ) (List.ofFn azi) (List.ofFn zen) (List.ofFn gain)).map fun w => Matrix.vecMul w X
  /-- The eigenvalues, and with them the estimated number of sources. -/
  sources : ∀ (α σ : ℝ) (a : Option ℝ), (eigh _ (covOf X' α σ)).1 = (eigh _ (covOf X α σ)).1 ∧
    estimateNumSources (List.ofFn (eigh _ (covOf X' α σ)).1) a = estimateNumSources (List.ofFn (eigh _ (covOf X α σ)).1) a
  /-- The MUSIC spectrum, where signal and noise subspace are told apart by their eigenvalues. -/
  music : ∀ (α σ : ℝ) (n : ℕ) (h : 1 ≤ n ∧ n < (N + 1) ^ 2),
    (eigh _ (covOf X α σ)).1 ⟨(N + 1) ^ 2 - n - 1, by omega⟩ < (eigh _ (covOf X α σ)).1 ⟨(N + 1) ^ 2 - n, by omega⟩ →
    shMusic eigh (covOf X' α σ) n azi' zen' = shMusic eigh (covOf X α σ) n azi zen
  /-- The power and coherence of the directions in the two parts of the separated covariance. -/
  separation : ∀ (α σ : ℝ) (k : Option ℤ),
    (separateCov eigh (covOf X' α σ) k).map (fun p => (shMat N azi' zen' * p.1 * (shMat N azi' zen').transpose, shMat N azi' zen' * p.2 * (shMat N azi' zen').transpose)) =
    (separateCov eigh (covOf X α σ) k).map fun p => (shMat N azi zen * p.1 * (shMat N azi zen).transpose, shMat N azi zen * p.2 * (shMat N azi zen).transpose)

theorem covOf_moved {K S : ℕ} {T : Matrix (Fin K) (Fin K) ℝ} (h : T * T.transpose = 1) (X : Matrix (Fin K) (Fin S) ℝ) (α σ : ℝ) :
    covOf (T * X) α σ = T * covOf X α σ * T.transpose := by
  unfold covOf
  rw [Matrix.mul_add, Matrix.add_mul, Matrix.mul_smul, Matrix.smul_mul, Matrix.mul_smul, Matrix.smul_mul, Matrix.mul_one, h, Matrix.transpose_mul]
  simp only [Matrix.mul_assoc]

theorem covOf_symm {K S : ℕ} (X : Matrix (Fin K) (Fin S) ℝ) (α σ : ℝ) : (covOf X α σ).transpose = covOf X α σ := by
  unfold covOf
  rw [Matrix.transpose_add, Matrix.transpose_smul, Matrix.transpose_smul, Matrix.transpose_mul, Matrix.transpose_transpose, Matrix.transpose_one]

theorem same_of_moves (eigh) (heigh : ∀ (n : ℕ) (M : Matrix (Fin n) (Fin n) ℝ), M.transpose = M → EighOf eigh M) {N g S : ℕ}
    {T : Matrix (Fin ((N + 1) ^ 2)) (Fin ((N + 1) ^ 2)) ℝ} {azi zen azi' zen' : Fin g → ℝ} (h : Moves T azi zen azi' zen') (X : Matrix (Fin ((N + 1) ^ 2)) (Fin S) ℝ) :
    SameAnalysis eigh X (T * X) azi zen azi' zen' := by
  have hC := covOf_moved h.orth' X
  have he : ∀ α σ, EighOf eigh (covOf X α σ) := fun α σ => heigh _ _ (covOf_symm X α σ)
  have he' : ∀ α σ, EighOf eigh (T * covOf X α σ * T.transpose) := fun α σ => by rw [← hC]; exact heigh _ _ (covOf_symm _ α σ)
  refine ⟨fun p => beams_moved h p X, fun α σ => ?_, fun α σ gain => ?_, fun α σ a => ?_, fun α σ n hn hg => ?_, fun α σ k => ?_⟩
  · rw [hC, mvdr_moved h]
    rcases shMvdr (covOf X α σ) azi zen with e | W
    · rfl
    · change shBeamform _ _ = shBeamform _ _
      unfold shBeamform
      rw [dif_pos rfl, dif_pos rfl]
      congr 1
      change W * T.transpose * (T * X) = W * X
      rw [Matrix.mul_assoc, ← Matrix.mul_assoc T.transpose, h.orth, Matrix.one_mul]
  · rw [hC, lcmv_moved h]
    rcases shLcmv (covOf X α σ) (List.ofFn azi) (List.ofFn zen) (List.ofFn gain) with e | w
    · rfl
    · change Except.ok _ = Except.ok _
      congr 1
      change Matrix.vecMul (Matrix.vecMul w T.transpose) (T * X) = Matrix.vecMul w X
      rw [Matrix.vecMul_vecMul, ← Matrix.mul_assoc, h.orth, Matrix.one_mul]
  · have := eigh_moved_values h.orth (he α σ) (he' α σ)
    rw [hC, this]
    exact ⟨rfl, rfl⟩
  · rw [hC]
    refine music_moved eigh eigh h (he α σ) (he' α σ) n fun i j hi hj => ?_
    have hcut : sliceBound ((N + 1) ^ 2) (-(n : ℤ)) = (N + 1) ^ 2 - n := by
      unfold sliceBound
      rw [if_pos (by omega)]
      omega
    rw [hcut] at hi hj
    have h1 : (eigh _ (covOf X α σ)).1 i ≤ (eigh _ (covOf X α σ)).1 ⟨(N + 1) ^ 2 - n - 1, by omega⟩ := (he α σ).mono (Fin.mk_le_mk.2 (by omega))
    have h2 : (eigh _ (covOf X α σ)).1 ⟨(N + 1) ^ 2 - n, by omega⟩ ≤ (eigh _ (covOf X α σ)).1 j := (he α σ).mono (Fin.mk_le_mk.2 (by omega))
    exact (lt_of_le_of_lt h1 (lt_of_lt_of_le hg h2)).ne
  · rw [hC, separate_moved eigh h.orth (he α σ) (he' α σ)]
    rcases separateCov eigh (covOf X α σ) k with e | ⟨P, Q⟩
    · rfl
    · change Except.ok _ = Except.ok _
      congr 1
      have key : ∀ M : Matrix (Fin ((N + 1) ^ 2)) (Fin ((N + 1) ^ 2)) ℝ,
          shMat N azi' zen' * (T * M * T.transpose) * (shMat N azi' zen').transpose = shMat N azi zen * M * (shMat N azi zen).transpose := by
        intro M
        rw [h.steer, Matrix.transpose_mul, Matrix.transpose_transpose]
        calc shMat N azi zen * T.transpose * (T * M * T.transpose) * (T * (shMat N azi zen).transpose)
            = shMat N azi zen * (T.transpose * T) * M * (T.transpose * T) * (shMat N azi zen).transpose := by simp only [Matrix.mul_assoc]
          _ = _ := by rw [h.orth, Matrix.mul_one, Matrix.mul_one]
      exact Prod.ext (key P) (key Q)

/-- **C145** Turned sound fields: after `rotate_sh` pattern, MVDR and LCMV beamformers steered to the turned directions give the same signals, the number of sources is
estimated alike, MUSIC gives the same spectrum at the turned directions, and `separate_cov` the same power and coherence. -/
theorem C145_turned (eigh) (heigh : ∀ (n : ℕ) (M : Matrix (Fin n) (Fin n) ℝ), M.transpose = M → EighOf eigh M) {N g S : ℕ} (hN : 1 ≤ N) (yaw pitch roll : ℝ)
    (azi zen azi' zen' : Fin g → ℝ) (hz : ∀ j, zen j ∈ Set.Icc 0 π) (hz' : ∀ j, zen' j ∈ Set.Icc 0 π)
    (hd : ∀ j, dirVec (azi' j) (zen' j) = (rotationEuler yaw pitch roll).mulVec (dirVec (azi j) (zen j))) (F : Matrix (Fin S) (Fin ((N + 1) ^ 2)) ℝ) :
    ∃ F' : Matrix (Fin S) (Fin ((N + 1) ^ 2)) ℝ, rotateSh ⟨S, (N + 1) ^ 2, F⟩ yaw pitch roll .real = .ok ⟨S, (N + 1) ^ 2, F'⟩ ∧
      SameAnalysis eigh F.transpose F'.transpose azi zen azi' zen' := by
  obtain ⟨T, hT, hF⟩ := moves_turn (g := g) hN yaw pitch roll
  refine ⟨_, hF S F, ?_⟩
  have := same_of_moves eigh heigh (hT azi zen azi' zen' hz hz' hd) F.transpose
  rwa [show T * F.transpose = (F * T.transpose).transpose by rw [Matrix.transpose_mul, Matrix.transpose_transpose]] at this

/-- **C145** Mirrored sound fields are analysed alike in the mirrored directions. -/
theorem C145_mirrored (eigh) (heigh : ∀ (n : ℕ) (M : Matrix (Fin n) (Fin n) ℝ), M.transpose = M → EighOf eigh M) {N g S : ℕ} (c : Fin 3) (azi zen : Fin g → ℝ)
    (X : Matrix (Fin ((N + 1) ^ 2)) (Fin S) ℝ) :
    SameAnalysis eigh X (mirrorSig c X) azi zen (fun j => (mirrorDir c (azi j) (zen j)).1) fun j => (mirrorDir c (azi j) (zen j)).2 := by
  have := same_of_moves eigh heigh (moves_mirror (N := N) c azi zen) X
  rwa [show (Matrix.diagonal fun q : Fin ((N + 1) ^ 2) => mirrorSign c (acnOrder q) (acnDegree q)) * X = mirrorSig c X by
    ext q s; rw [Matrix.diagonal_mul]; rfl] at this

/-! #### examples -/

theorem quarter_turn : dirVec (π / 2) (π / 2) = (rotationEuler (-(π / 2)) 0 0).mulVec (dirVec 0 (π / 2)) := by
  funext c
  fin_cases c <;> simp [dirVec, rotationEuler, rotZ, rotY, rotX, Matrix.mulVec, dotProduct, Fin.sum_univ_three, Matrix.mul_apply]

/-- `C145_turned`: two directions, ahead and to the left, and a quarter turn to the left. -/
example (F : Matrix (Fin 5) (Fin 9) ℝ) : ∃ eigh : (n : ℕ) → Matrix (Fin n) (Fin n) ℝ → (Fin n → ℝ) × Matrix (Fin n) (Fin n) ℝ, ∃ F' : Matrix (Fin 5) (Fin 9) ℝ,
    rotateSh ⟨5, 9, F⟩ (-(π / 2)) 0 0 .real = .ok ⟨5, 9, F'⟩ ∧
      SameAnalysis (N := 2) eigh F.transpose F'.transpose ![0, π / 2] ![π / 2, π / 2] ![π / 2, π] ![π / 2, π / 2] := by
  obtain ⟨eigh, he⟩ := eigh_exists
  have hp := Real.pi_pos
  refine ⟨eigh, C145_turned eigh he (N := 2) (by norm_num) (-(π / 2)) 0 0 ![0, π / 2] ![π / 2, π / 2] ![π / 2, π] ![π / 2, π / 2] ?_ ?_ ?_ F⟩
  · intro j; fin_cases j <;> constructor <;> simp <;> linarith
  · intro j; fin_cases j <;> constructor <;> simp <;> linarith
  · intro j
    fin_cases j
    · exact quarter_turn
    · funext c
      fin_cases c <;> simp [dirVec, rotationEuler, rotZ, rotY, rotX, Matrix.mulVec, dotProduct, Fin.sum_univ_three, Matrix.mul_apply]

/-- `C145_mirrored`: a direction to the left, and to the right. -/
example (X : Matrix (Fin 9) (Fin 5) ℝ) : ∃ eigh : (n : ℕ) → Matrix (Fin n) (Fin n) ℝ → (Fin n → ℝ) × Matrix (Fin n) (Fin n) ℝ,
    SameAnalysis (N := 2) eigh X (mirrorSig 1 X) ![π / 2] ![π / 2] (fun j => -![π / 2] j) ![π / 2] := by
  obtain ⟨eigh, he⟩ := eigh_exists
  exact ⟨eigh, C145_mirrored eigh he (N := 2) 1 ![π / 2] ![π / 2] X⟩

/-- The condition in `SameAnalysis.music`: for a field with one active channel the largest eigenvalue stands out. -/
example (eigh) (heigh : ∀ (n : ℕ) (M : Matrix (Fin n) (Fin n) ℝ), M.transpose = M → EighOf eigh M) :
    (eigh 4 (covOf (!![0; 0; 0; 1] : Matrix (Fin 4) (Fin 1) ℝ) 2 1)).1 2 < (eigh 4 (covOf (!![0; 0; 0; 1] : Matrix (Fin 4) (Fin 1) ℝ) 2 1)).1 3 := by
  obtain ⟨C, hC⟩ : ∃ C, C = covOf (!![0; 0; 0; 1] : Matrix (Fin 4) (Fin 1) ℝ) 2 1 := ⟨_, rfl⟩
  have hd : C = Matrix.diagonal ![1, 1, 1, 3] := by
    rw [hC]; ext i j
    fin_cases i <;> fin_cases j <;> norm_num [covOf, Matrix.vecMul, dotProduct, Matrix.diagonal]
  have h0 : IsEigh C ![1, 1, 1, 3] 1 := by
    refine ⟨?_, by simp, by simp [hd]⟩
    intro i j hij
    fin_cases i <;> fin_cases j <;> first | (exfalso; revert hij; decide) | norm_num
  have h1 : IsEigh (1 * C * (1 : Matrix (Fin 4) (Fin 4) ℝ).transpose) (eigh 4 C).1 (eigh 4 C).2 := by
    simpa using heigh 4 C (by rw [hC]; exact covOf_symm _ _ _)
  rw [← hC, eigh_moved_values (T := 1) (by simp) h0 h1]
  show (1 : ℝ) < 3
  norm_num

/-- **C145** The condition is needed: where the eigenvalues of the signal and the noise subspace agree, the spectrum depends on the basis `eigh`
happens to return; turning silence (with diagonal loading) then does not turn the spectrum. -/
theorem C145_music_fails : ∃ eigh : (n : ℕ) → Matrix (Fin n) (Fin n) ℝ → (Fin n → ℝ) × Matrix (Fin n) (Fin n) ℝ,
    (∀ (n : ℕ) (M : Matrix (Fin n) (Fin n) ℝ), M.transpose = M → EighOf eigh M) ∧ ∃ F F' : Matrix (Fin 1) (Fin 4) ℝ,
      rotateSh ⟨1, 4, F⟩ (-(π / 2)) 0 0 .real = .ok ⟨1, 4, F'⟩ ∧ dirVec (π / 2) (π / 2) = (rotationEuler (-(π / 2)) 0 0).mulVec (dirVec 0 (π / 2)) ∧
      shMusic eigh (covOf F'.transpose 1 1) 1 ![π / 2] ![π / 2] ≠ shMusic eigh (covOf F.transpose 1 1) 1 ![0] ![π / 2] := by
  classical
  obtain ⟨eigh, he⟩ := eigh_exists
  refine ⟨fun n M => if M = 1 then (1, 1) else eigh n M, ?_, 0, 0, ?_, quarter_turn, ?_⟩
  · intro n M hM
    by_cases h : M = 1
    · unfold EighOf
      simp only [h, if_true]
      exact ⟨monotone_const, by simp, by simp⟩
    · have := he n M hM
      unfold EighOf at this ⊢
      simpa only [h, if_false] using this
  · have := rotateSh_eq 1 1 le_rfl (-(π / 2)) 0 0 0
    rw [Matrix.zero_mul] at this
    exact this
  · have h1 : covOf (0 : Matrix (Fin 1) (Fin 4) ℝ).transpose 1 1 = 1 := by simp [covOf]
    have hp := Real.pi_pos
    have hz : π / 2 ∈ Set.Icc 0 π := ⟨by linarith, by linarith⟩
    have key : ∀ a : ℝ, shMusic (fun n M => if M = 1 then (1, 1) else eigh n M) (1 : Matrix (Fin 4) (Fin 4) ℝ) 1 ![a] ![π / 2] =
        .ok fun _ => 1 / (shVec 1 a (π / 2) 0 ^ 2 + shVec 1 a (π / 2) 1 ^ 2 + shVec 1 a (π / 2) 2 ^ 2 + 10e-12) := by
      intro a
      have hs : steerMat 4 ![a] ![π / 2] = .ok (shMat 1 ![a] ![π / 2]) := steerMat_ok 1 _ _
      unfold shMusic
      rw [dif_pos rfl, hs]
      refine congrArg Except.ok ?_
      funext j
      simp only [if_pos (show (1 : Matrix (Fin 4) (Fin 4) ℝ).submatrix id (Fin.cast rfl) = 1 from rfl)]
      congr 2
      have hx : ∀ (i : Fin (min (sliceBound 4 (-1)) 4)), (((1 : Matrix (Fin 4) (Fin 4) ℝ).submatrix id (Fin.castLE (min_le_right _ _)) : Matrix (Fin 4) (Fin (min (sliceBound 4 (-1)) 4)) ℝ).transpose *
          (shMat 1 ![a] ![π / 2] : Matrix (Fin 1) (Fin 4) ℝ).transpose) i j = shVec 1 a (π / 2) (Fin.castLE (min_le_right _ _) i) := by
        intro i
        rw [Matrix.mul_apply, Finset.sum_eq_single (Fin.castLE (min_le_right _ _) i : Fin 4)]
        · obtain rfl : j = 0 := Subsingleton.elim _ _
          simp [shMat]
          exact (congrArg (· * _) (Matrix.one_apply_eq (Fin.castLE (min_le_right _ _) i : Fin 4))).trans (one_mul _)
        · intro b _ hb
          simp [Matrix.one_apply, hb]
        · intro hb; exact absurd (Finset.mem_univ _) hb
      refine (Finset.sum_congr rfl fun i _ => congrArg₂ (· * ·) (hx i) (hx i)).trans ?_
      refine (Fin.sum_univ_three (fun i : Fin 3 => shVec 1 a (π / 2) (Fin.castLE (by norm_num) i) * shVec 1 a (π / 2) (Fin.castLE (by norm_num) i))).trans ?_
      simp only [pow_two]
      rfl
    rw [h1, key, key]
    intro h
    have h := congrFun (Except.ok.inj h) 0
    obtain ⟨a0, a1, a2, -⟩ := shVec_first (π / 2) (π / 2) hz
    obtain ⟨b0, b1, b2, -⟩ := shVec_first 0 (π / 2) hz
    rw [a0, a1, a2, b0, b1, b2] at h
    have h4 : 0 < √(4 * π) := by positivity
    have h3 : 0 < √(3 : ℝ) / √(4 * π) := by positivity
    rw [div_eq_div_iff (by positivity) (by positivity)] at h
    simp at h
    exact (Real.sqrt_pos.2 hp).ne' h

/-! ### Pseudo intensity -/

/-- A channel of a turned first-order sound field: the combination of `X`, `Y`, `Z` with a row of the matrix. -/
noncomputable def turnChannel (R : Mat3) (X Y Z : List ℝ) (c : Fin 3) : List ℝ :=
  (List.range X.length).map fun t => R c 0 * X.getD t 0 + R c 1 * Y.getD t 0 + R c 2 * Z.getD t 0

theorem turnChannel_getD (R : Mat3) {X Y Z : List ℝ} (hY : Y.length = X.length) (hZ : Z.length = X.length) (c : Fin 3) (t : ℕ) :
    (turnChannel R X Y Z c).getD t 0 = R c 0 * X.getD t 0 + R c 1 * Y.getD t 0 + R c 2 * Z.getD t 0 := by
  unfold turnChannel
  by_cases h : t < X.length
  · simp [List.getD_eq_getElem?_getD, h]
  · simp [List.getD_eq_getElem?_getD, h, List.getElem?_eq_none (show Y.length ≤ t by omega), List.getElem?_eq_none (show Z.length ≤ t by omega),
      List.getElem?_eq_none (show X.length ≤ t by omega)]

theorem trapz_lin (L : ℕ) (a b c : ℝ) (f g h : ℕ → ℝ) : trapz ((List.range L).map fun k => a * f k + b * g k + c * h k) =
    a * trapz ((List.range L).map f) + b * trapz ((List.range L).map g) + c * trapz ((List.range L).map h) := by
  cases L with
  | zero => simp [trapz]
  | succ m =>
    rw [trapz_range, trapz_range, trapz_range, trapz_range, Finset.mul_sum, Finset.mul_sum, Finset.mul_sum, ← Finset.sum_add_distrib, ← Finset.sum_add_distrib]
    exact Finset.sum_congr rfl fun k _ => by ring

theorem windowed_range (win W V : List ℝ) (hV : V.length = W.length) (i : ℕ) :
    windowed win W V i = trapz ((List.range (min win.length (W.length - i))).map fun k => win.getD k 0 * W.getD (i + k) 0 * V.getD (i + k) 0) := by
  unfold windowed
  congr 1
  refine List.ext_getElem (by simp; omega) fun k h1 h2 => ?_
  have hk : k < win.length ∧ i + k < W.length := by simp at h2; omega
  simp [List.getD_eq_getElem?_getD, hk.1, hk.2, hV ▸ hk.2]

theorem windowed_turn (R : Mat3) {X Y Z : List ℝ} (win W : List ℝ) (hX : X.length = W.length) (hY : Y.length = W.length) (hZ : Z.length = W.length) (c : Fin 3) (i : ℕ) :
    windowed win W (turnChannel R X Y Z c) i = R c 0 * windowed win W X i + R c 1 * windowed win W Y i + R c 2 * windowed win W Z i := by
  rw [windowed_range win W _ (by simp [turnChannel, hX]), windowed_range win W X hX, windowed_range win W Y hY, windowed_range win W Z hZ, ← trapz_lin]
  congr 1
  refine List.map_congr_left fun k _ => ?_
  rw [turnChannel_getD R (hY.trans hX.symm) (hZ.trans hX.symm)]
  ring

theorem intensity_turn (R : Mat3) {X Y Z : List ℝ} (win W : List ℝ) (hX : X.length = W.length) (hY : Y.length = W.length) (hZ : Z.length = W.length) (t : ℕ) (c : Fin 3) :
    applyWrites (allWrites W.length win W (turnChannel R X Y Z 0) (turnChannel R X Y Z 1) (turnChannel R X Y Z 2)) (t, c) =
      R c 0 * applyWrites (allWrites W.length win W X Y Z) (t, 0) + R c 1 * applyWrites (allWrites W.length win W X Y Z) (t, 1) +
        R c 2 * applyWrites (allWrites W.length win W X Y Z) (t, 2) := by
  have h1 := applyWrites_all W.length win W X Y Z t
  have h2 := applyWrites_all W.length win W (turnChannel R X Y Z 0) (turnChannel R X Y Z 1) (turnChannel R X Y Z 2) t
  simp only at h1 h2
  split_ifs at h1 h2 with hc
  · rw [h1.1, h1.2.1, h1.2.2]
    fin_cases c
    · exact h2.1.trans (windowed_turn R win W hX hY hZ 0 _)
    · exact h2.2.1.trans (windowed_turn R win W hX hY hZ 1 _)
    · exact h2.2.2.trans (windowed_turn R win W hX hY hZ 2 _)
  · rw [h2, h1, h1, h1]; ring

theorem smooth_turn (R : Mat3) (order n : ℕ) (I I' : ℕ × Fin 3 → ℝ) (h : ∀ t c, I' (t, c) = R c 0 * I (t, 0) + R c 1 * I (t, 1) + R c 2 * I (t, 2)) (t : ℕ) (c : Fin 3) :
    (smoothColumn order ((List.range n).map fun t => I' (t, c))).getD t 0 = R c 0 * (smoothColumn order ((List.range n).map fun t => I (t, 0))).getD t 0 +
      R c 1 * (smoothColumn order ((List.range n).map fun t => I (t, 1))).getD t 0 + R c 2 * (smoothColumn order ((List.range n).map fun t => I (t, 2))).getD t 0 := by
  have key : ∀ x : List ℝ, (smoothColumn order x).getD t 0 = if t < x.length then Sig.convAt x (hanning order) (((hanning order).length - 1) / 2 + t) else 0 := by
    intro x
    unfold smoothColumn Sig.convKeep
    rw [← Sig.convFull_getD]
    simp only [List.getD_eq_getElem?_getD, List.getElem?_take, List.getElem?_drop]
    split_ifs <;> rfl
  rw [key, key, key, key]
  simp only [List.length_map, List.length_range]
  split_ifs with ht
  · unfold Sig.convAt
    rw [Finset.mul_sum, Finset.mul_sum, Finset.mul_sum, ← Finset.sum_add_distrib, ← Finset.sum_add_distrib]
    refine Finset.sum_congr rfl fun k _ => ?_
    by_cases hk : k < n
    · simp only [List.getD_eq_getElem?_getD, List.getElem?_map, List.getElem?_range hk, Option.map_some, Option.getD_some, h]
      ring
    · simp [List.getD_eq_getElem?_getD, hk]
  · ring

/-- The spherical form of a turned vector: the same radius and, unless the vector is tiny, the turned direction. -/
theorem cart2sph_turn {R : Mat3} (hR : R.transpose * R = 1) (v : Vec3) :
    let s := cart2sph (v 0) (v 1) (v 2) false true
    let s' := cart2sph (R 0 0 * v 0 + R 0 1 * v 1 + R 0 2 * v 2) (R 1 0 * v 0 + R 1 1 * v 1 + R 1 2 * v 2) (R 2 0 * v 0 + R 2 1 * v 1 + R 2 2 * v 2) false true
    s'.2.2 = s.2.2 ∧ (10e-15 ≤ s.2.2 → dirVec s'.1 s'.2.1 = R.mulVec (dirVec s.1 s.2.1)) := by
  intro s s'
  obtain ⟨v', hv'⟩ : ∃ v', v' = R.mulVec v := ⟨_, rfl⟩
  have e : ∀ c : Fin 3, R c 0 * v 0 + R c 1 * v 1 + R c 2 * v 2 = v' c := fun c => by rw [hv', Matrix.mulVec, dotProduct, Fin.sum_univ_three]
  have hs' : s' = cart2sph (v' 0) (v' 1) (v' 2) false true := by rw [← e, ← e, ← e]
  have hrad : ∀ u : Vec3, √(u 0 ^ 2 + u 1 ^ 2 + u 2 ^ 2) = norm3 u := fun u => by
    unfold norm3; rw [dotProduct, Fin.sum_univ_three]; congr 1; ring
  have hr : s'.2.2 = s.2.2 := by
    rw [hs']
    show √(v' 0 ^ 2 + v' 1 ^ 2 + v' 2 ^ 2) = √(v 0 ^ 2 + v 1 ^ 2 + v 2 ^ 2)
    rw [hrad, hrad, hv', turn_norm hR]
  refine ⟨hr, fun h => ?_⟩
  have hpos : 0 < s.2.2 := lt_of_lt_of_le (by norm_num) h
  have back : ∀ u : Vec3, 10e-15 ≤ √(u 0 ^ 2 + u 1 ^ 2 + u 2 ^ 2) →
      (cart2sph (u 0) (u 1) (u 2) false true).2.2 • dirVec (cart2sph (u 0) (u 1) (u 2) false true).1 (cart2sph (u 0) (u 1) (u 2) false true).2.1 = u := by
    intro u hu
    have := C01_sph2cart_cart2sph (u 0) (u 1) (u 2) false true (by
      intro h0
      simp only [Prod.mk.injEq] at h0
      rw [h0.1, h0.2.1, h0.2.2] at hu
      norm_num at hu) (fun _ => hu)
    have h3 := Prod.mk.inj this
    have h4 := Prod.mk.inj h3.2
    funext c
    fin_cases c
    · exact (mul_assoc _ _ _).symm.trans h3.1
    · exact (mul_assoc _ _ _).symm.trans h4.1
    · exact h4.2
  have b1 := back v h
  have b2 := back v' (by rw [hs'] at hr; exact h.trans hr.ge)
  rw [← hs'] at b2
  have : s.2.2 • dirVec s'.1 s'.2.1 = s.2.2 • R.mulVec (dirVec s.1 s.2.1) := by
    rw [← Matrix.mulVec_smul]
    change _ = R.mulVec (s.2.2 • dirVec s.1 s.2.1)
    rw [← hr, b2, hr, b1, hv']
  exact smul_right_injective _ hpos.ne' this

/-- **C145** The pseudo intensity of a turned (or mirrored) first-order sound field is the turned one at every sample, with and without smoothing, for every number of
jobs and schedule: the same radius, and the turned direction unless the vector is shorter than `10e-15`. -/
theorem C145_intensity (cpus cpus' : ℕ) {R : Mat3} (hR : R.transpose * R = 1) (W X Y Z : List ℝ) (hX : X.length = W.length) (hY : Y.length = W.length)
    (hZ : Z.length = W.length) (winLen order : ℕ) (jobs jobs' : Option ℤ) (hj : 1 ≤ jobs.getD cpus) (hj' : 1 ≤ jobs'.getD cpus') (out out' : Py (List (ℝ × ℝ × ℝ)))
    (hr : PseudoIntensity cpus W X Y Z winLen order jobs out)
    (hr' : PseudoIntensity cpus' W (turnChannel R X Y Z 0) (turnChannel R X Y Z 1) (turnChannel R X Y Z 2) winLen order jobs' out') :
    (∃ e, out = .error e ∧ out' = .error e) ∨ ∃ l l' : List (ℝ × ℝ × ℝ), out = .ok l ∧ out' = .ok l' ∧ l.length = W.length ∧ l'.length = W.length ∧
      ∀ (t : ℕ) (s s' : ℝ × ℝ × ℝ), l[t]? = some s → l'[t]? = some s' → s'.2.2 = s.2.2 ∧ (10e-15 ≤ s.2.2 → dirVec s'.1 s'.2.1 = R.mulVec (dirVec s.1 s.2.1)) := by
  by_cases hodd : winLen % 2 = 0
  · left
    refine ⟨.assertionError, C63_schedule cpus cpus W X Y Z winLen order jobs jobs hj hj _ _ hr (.evenWindow hodd), C63_schedule cpus' cpus' W _ _ _ winLen order jobs' jobs' hj' hj' _ _ hr' (.evenWindow hodd)⟩
  have h1 := C63_schedule cpus 1 W X Y Z winLen order jobs (some 1) hj le_rfl _ _ hr (.serial (by omega) rfl)
  have h2 := C63_schedule cpus' 1 W _ _ _ winLen order jobs' (some 1) hj' le_rfl _ _ hr' (.serial (by omega) rfl)
  have hI := intensity_turn R (hanning winLen) W hX hY hZ
  obtain ⟨I, hIe⟩ : ∃ I, I = applyWrites (allWrites W.length (hanning winLen) W X Y Z) := ⟨_, rfl⟩
  obtain ⟨I', hIe'⟩ : ∃ I', I' = applyWrites (allWrites W.length (hanning winLen) W (turnChannel R X Y Z 0) (turnChannel R X Y Z 1) (turnChannel R X Y Z 2)) := ⟨_, rfl⟩
  rw [← hIe] at h1 hI
  rw [← hIe'] at h2 hI
  unfold intensityOut at h1 h2
  simp only at h1 h2
  split_ifs at h1 h2 with ho hev
  · right
    refine ⟨_, _, h1, h2, by simp, by simp, fun t s s' hs hs' => ?_⟩
    simp only [List.getElem?_map, Option.map_eq_some_iff] at hs hs'
    obtain ⟨k, hk, rfl⟩ := hs
    obtain ⟨k', hk', rfl⟩ := hs'
    rw [hk] at hk'
    obtain rfl := Option.some.inj hk'
    rw [hI, hI, hI]
    exact cart2sph_turn hR ![I (k, 0), I (k, 1), I (k, 2)]
  · left
    exact ⟨_, h1, h2⟩
  · right
    refine ⟨_, _, h1, h2, by simp, by simp, fun t s s' hs hs' => ?_⟩
    simp only [List.getElem?_map, Option.map_eq_some_iff] at hs hs'
    obtain ⟨k, hk, rfl⟩ := hs
    obtain ⟨k', hk', rfl⟩ := hs'
    rw [hk] at hk'
    obtain rfl := Option.some.inj hk'
    have hsm := smooth_turn R order W.length I I' hI k
    rw [hsm, hsm, hsm]
    exact cart2sph_turn hR ![(smoothColumn order ((List.range W.length).map fun t => I (t, 0))).getD k 0, (smoothColumn order ((List.range W.length).map fun t => I (t, 1))).getD k 0,
      (smoothColumn order ((List.range W.length).map fun t => I (t, 2))).getD k 0]

theorem blockE_first (r : Mat3) : blockE r 4 2 = !![1, 0, 0, 0; 0, r 1 1, r 1 2, r 1 0; 0, r 2 1, r 2 2, r 2 0; 0, r 0 1, r 0 2, r 0 0] := by
  have o : ∀ i : Fin 4, acnOrder i = if i = 0 then 0 else 1 := by decide +kernel
  have d : ∀ i : Fin 4, acnDegree i = if i = 0 then 0 else (i : ℤ) - 2 := by decide +kernel
  ext i j
  unfold blockE
  rw [o, o, d, d]
  fin_cases i <;> fin_cases j <;> simp [Rc, ax]

/-- **C145** What `sh_to_b` makes of a turned first-order signal: the same W, and X, Y, Z turned like the vectors. -/
theorem C145_b_format {S : ℕ} (yaw pitch roll : ℝ) (w : Option ℝ) (F : Matrix (Fin S) (Fin 4) ℝ) : ∃ (F' : Matrix (Fin S) (Fin 4) ℝ) (B B' : Matrix (Fin 4) (Fin S) ℝ),
    rotateSh ⟨S, 4, F⟩ yaw pitch roll .real = .ok ⟨S, 4, F'⟩ ∧ shToB ⟨4, S, F.transpose⟩ w = .ok ⟨4, S, B⟩ ∧ shToB ⟨4, S, F'.transpose⟩ w = .ok ⟨4, S, B'⟩ ∧
      ∀ s, B' 0 s = B 0 s ∧ ![B' 1 s, B' 2 s, B' 3 s] = (rotationEuler yaw pitch roll).mulVec ![B 1 s, B 2 s, B 3 s] := by
  refine ⟨F * (blockE (rotationEuler yaw pitch roll) 4 2).transpose, ?_⟩
  obtain ⟨B, hB, h1⟩ := C13_channels S F.transpose w
  obtain ⟨B', hB', h2⟩ := C13_channels S (F * (blockE (rotationEuler yaw pitch roll) 4 2).transpose).transpose w
  refine ⟨B, B', rotateSh_eq 1 S le_rfl yaw pitch roll F, hB, hB', fun s => ?_⟩
  obtain ⟨a0, a1, a2, a3⟩ := h1 s
  obtain ⟨b0, b1, b2, b3⟩ := h2 s
  obtain ⟨r, hr⟩ : ∃ r, r = rotationEuler yaw pitch roll := ⟨_, rfl⟩
  rw [← hr] at b0 b1 b2 b3 ⊢
  rw [blockE_first] at b0 b1 b2 b3
  simp only [Matrix.transpose_apply, Matrix.mul_apply, Fin.sum_univ_four, Matrix.of_apply, Matrix.cons_val', Matrix.cons_val_zero, Matrix.cons_val_one, Matrix.cons_val] at a0 a1 a2 a3 b0 b1 b2 b3
  refine ⟨by rw [b0, a0]; ring, ?_⟩
  funext c
  rw [b1, b2, b3, a1, a2, a3]
  fin_cases c <;> simp [Matrix.mulVec, dotProduct, Fin.sum_univ_three] <;> ring

/-- **C145** The energy vector of turned loudspeakers is the turned energy vector. -/
theorem C145_energy_vector {Q : ℕ} {R : Mat3} (hR : R.transpose * R = 1) (p : Fin Q → Vec3) (g : Fin Q → ℝ) :
    (rE (fun q => R.mulVec (p q)) g).1 = (rE p g).1.map R.mulVec ∧ (rE (fun q => R.mulVec (p q)) g).2 = (rE p g).2 := by
  unfold rE
  by_cases hE : ∑ q, g q ^ 2 = 0
  · simp [if_pos hE]
  · simp only [if_neg hE]
    have hv : (fun c => 1 / (∑ q, g q ^ 2) * ∑ q, g q ^ 2 * (R.mulVec (p q)) c) = R.mulVec fun c => 1 / (∑ q, g q ^ 2) * ∑ q, g q ^ 2 * p q c := by
      funext c
      simp only [Matrix.mulVec, dotProduct, Fin.sum_univ_three]
      have : ∑ q, g q ^ 2 * (R c 0 * p q 0 + R c 1 * p q 1 + R c 2 * p q 2) = R c 0 * ∑ q, g q ^ 2 * p q 0 + R c 1 * ∑ q, g q ^ 2 * p q 1 + R c 2 * ∑ q, g q ^ 2 * p q 2 := by
        rw [Finset.mul_sum, Finset.mul_sum, Finset.mul_sum, ← Finset.sum_add_distrib, ← Finset.sum_add_distrib]
        exact Finset.sum_congr rfl fun q _ => by ring
      rw [this]
      ring
    refine ⟨congrArg some hv, ?_⟩
    have hn : ∀ u : Vec3, ∑ c, u c ^ 2 = u ⬝ᵥ u := fun u => Finset.sum_congr rfl fun c _ => pow_two _
    show √(∑ c, _ ^ 2) = √(∑ c, _ ^ 2)
    rw [hn, hn, hv, turn_dot hR]

/-! #### examples -/

/-- `C145_intensity`: a plane wave of three samples from the front, turned by a mirror to come from behind. -/
example : (mirror 0).transpose * mirror 0 = 1 ∧ (1 : ℤ) ≤ (some 1 : Option ℤ).getD (4 : ℕ) ∧
    ∃ out out', PseudoIntensity 4 [1, 2, 1] [1, 2, 1] [0, 0, 0] [0, 0, 0] 3 0 (some 1) out ∧
      PseudoIntensity 8 [1, 2, 1] (turnChannel (mirror 0) [1, 2, 1] [0, 0, 0] [0, 0, 0] 0) (turnChannel (mirror 0) [1, 2, 1] [0, 0, 0] [0, 0, 0] 1)
        (turnChannel (mirror 0) [1, 2, 1] [0, 0, 0] [0, 0, 0] 2) 3 0 (some 1) out' := by
  refine ⟨?_, le_rfl, _, _, .serial (by norm_num) rfl, .serial (by norm_num) rfl⟩
  unfold mirror
  rw [Matrix.diagonal_transpose, Matrix.diagonal_mul_diagonal, ← Matrix.diagonal_one]
  congr 1; funext c; fin_cases c <;> simp [Function.update]

/-- `C145_energy_vector`: the gains of the octahedron, mirrored; `C145_b_format`: a quarter turn of a field. -/
example (g : Fin 6 → ℝ) (F : Matrix (Fin 3) (Fin 4) ℝ) : (rE (fun q => (rotationEuler (-(π / 2)) 0 0).mulVec (Oct.pts q)) g).2 = (rE Oct.pts g).2 ∧
    ∃ F' : Matrix (Fin 3) (Fin 4) ℝ, rotateSh ⟨3, 4, F⟩ (-(π / 2)) 0 0 .real = .ok ⟨3, 4, F'⟩ := by
  refine ⟨(C145_energy_vector ?_ _ g).2, ?_⟩
  · exact mul_eq_one_comm.1 (euler_orth (-(π / 2)) 0 0)
  · obtain ⟨F', B, B', h, -⟩ := C145_b_format (-(π / 2)) 0 0 none F
    exact ⟨F', h⟩

end Verif.Props
