import Verif.Props.AnalysisTurned
import Verif.Props.Interaural
import Verif.Props.ProcessSignals

/-!
**C146** Only relative levels matter to the analysis of a sound field.
-/

namespace Verif.Props

open Real Matrix Verif.Utils Verif.Decoder Verif.Sph Verif.Parsa Verif.Process Verif.Sig

/-! ### Beamformers -/

theorem npInv_scale {L : ℕ} {c : ℝ} (hc : c ≠ 0) (S : Matrix (Fin L) (Fin L) ℝ) : npInv (c • S) = (npInv S).map (c⁻¹ • ·) := by
  unfold npInv
  rw [Matrix.det_smul]
  by_cases h : S.det = 0
  · rw [if_pos h, if_pos (by rw [h, mul_zero])]; rfl
  · rw [if_neg h, if_neg (mul_ne_zero (pow_ne_zero _ hc) h)]
    have : (c • S)⁻¹ = c⁻¹ • S⁻¹ := by
      refine Matrix.inv_eq_right_inv ?_
      rw [Matrix.smul_mul, Matrix.mul_smul, Matrix.mul_nonsing_inv _ (isUnit_iff_ne_zero.2 h), smul_smul, mul_inv_cancel₀ hc, one_smul]
    rw [this]; rfl

/-- **C146** The weights of MVDR beamformers do not depend on the level of the signals the covariance was estimated from. -/
theorem C146_mvdr {L M g : ℕ} {c : ℝ} (hc : c ≠ 0) (S : Matrix (Fin L) (Fin M) ℝ) (azi zen : Fin g → ℝ) : shMvdr (c • S) azi zen = shMvdr S azi zen := by
  unfold shMvdr
  by_cases h : L = M
  · subst h
    rw [dif_pos rfl, dif_pos rfl]
    change (npInv (c • S)).bind _ = (npInv S).bind _
    rw [npInv_scale hc]
    rcases npInv S with e | I
    · rfl
    · change (steerMat L azi zen).map _ = (steerMat L azi zen).map _
      rcases steerMat L azi zen with e | Y
      · rfl
      · change Except.ok _ = Except.ok _
        congr 1
        funext i q
        show (Y * (c⁻¹ • I)) i q / (Y * (c⁻¹ • I) * Y.transpose) i i = (Y * I) i q / (Y * I * Y.transpose) i i
        rw [Matrix.mul_smul, Matrix.smul_mul, Matrix.smul_apply, Matrix.smul_apply, smul_eq_mul, smul_eq_mul, mul_div_mul_left _ _ (inv_ne_zero hc)]
  · rw [dif_neg h, dif_neg h]

/-- **C146** The weights of LCMV beamformers do not depend on the level of the signals. -/
theorem C146_lcmv {L M : ℕ} {c : ℝ} (hc : c ≠ 0) (S : Matrix (Fin L) (Fin M) ℝ) (azi zen gain : List ℝ) : shLcmv (c • S) azi zen gain = shLcmv S azi zen gain := by
  unfold shLcmv
  by_cases h : L = M
  · subst h
    rw [dif_pos rfl, dif_pos rfl]
    split_ifs
    · rfl
    · rfl
    · change (npInv (c • S)).bind _ = (npInv S).bind _
      rw [npInv_scale hc]
      rcases npInv S with e | I
      · rfl
      · change (steerMat L _ _).bind _ = (steerMat L _ _).bind _
        rcases steerMat L (fun i : Fin azi.length => azi.getD i 0) (fun i => zen.getD i 0) with e | Y
        · rfl
        · change (npInv (Y.transpose.transpose * (c⁻¹ • I) * Y.transpose)).map _ = (npInv (Y.transpose.transpose * I * Y.transpose)).map _
          rw [Matrix.mul_smul, Matrix.smul_mul, npInv_scale (inv_ne_zero hc)]
          rcases npInv (Y.transpose.transpose * I * Y.transpose) with e | G
          · rfl
          · change Except.ok _ = Except.ok _
            congr 1
            simp only [Matrix.vecMul_vecMul, inv_inv, Matrix.mul_smul, Matrix.smul_mul, smul_smul, inv_mul_cancel₀ hc, one_smul]
  · rw [dif_neg h, dif_neg h]

/-! ### Eigenvalues -/

theorem eigh_scale {L : ℕ} {c : ℝ} (hc : 0 < c) {S v : Matrix (Fin L) (Fin L) ℝ} {w : Fin L → ℝ} (h : IsEigh (c • S) w v) :
    IsEigh (1 * S * (1 : Matrix (Fin L) (Fin L) ℝ).transpose) (c⁻¹ • w) v := by
  rw [Matrix.transpose_one, Matrix.one_mul, Matrix.mul_one]
  refine ⟨fun i j hij => mul_le_mul_of_nonneg_left (h.mono hij) (inv_nonneg.2 hc.le), h.orth, ?_⟩
  have := congrArg (c⁻¹ • ·) h.decomp
  simp only [smul_smul, inv_mul_cancel₀ hc.ne', one_smul] at this
  rw [this, Matrix.diagonal_smul, Matrix.mul_smul, Matrix.smul_mul]

theorem npIndex_scale {L : ℕ} (c : ℝ) (w : Fin L → ℝ) (i : ℤ) : npIndex (c • w) i = (npIndex w i).map (c * ·) := by
  unfold npIndex
  split_ifs <;> rfl

theorem diag_scale {m n : ℕ} (c : ℝ) (A : Matrix (Fin m) (Fin n) ℝ) (d e : Fin n → ℝ) (h : ∀ i, e i = c * d i) :
    A * Matrix.diagonal e * A.transpose = c • (A * Matrix.diagonal d * A.transpose) := by
  rw [show e = c • d from funext h, Matrix.diagonal_smul, Matrix.mul_smul, Matrix.smul_mul]

theorem split_scale {L : ℕ} (c : ℝ) (w : Fin L → ℝ) (v : Matrix (Fin L) (Fin L) ℝ) (k : ℤ) :
    splitCov (c • w) v k = (splitCov w v k).map fun p => (c • p.1, c • p.2) := by
  unfold splitCov
  rw [npIndex_scale]
  rcases npIndex w (-(k + 1)) with e | wr
  · rfl
  · change Except.ok _ = Except.ok _
    congr 1
    refine Prod.ext ?_ ?_
    · exact diag_scale c _ _ _ fun i => (mul_sub c _ _).symm
    · refine diag_scale c _ _ _ fun i => ?_
      split_ifs <;> rfl

/-- **C146** The eigenvalues grow with the level; split at a given number both parts of the covariance grow alike; the MUSIC spectrum remains, where signal and noise
subspace are told apart by their eigenvalues. -/
theorem C146_separation (eigh) {L : ℕ} (S : Matrix (Fin L) (Fin L) ℝ) {c : ℝ} (hc : 0 < c) (he : EighOf eigh S) (he' : EighOf eigh (c • S)) :
    (eigh L (c • S)).1 = c • (eigh L S).1 ∧ ∀ k : ℤ, separateCov eigh (c • S) (some k) = (separateCov eigh S (some k)).map fun p => (c • p.1, c • p.2) := by
  have h1 := eigh_scale hc he'
  have hw := eigh_moved_values (T := 1) (by simp) he h1
  have hw' : (eigh L (c • S)).1 = c • (eigh L S).1 := by rw [← hw, smul_smul, mul_inv_cancel₀ hc.ne', one_smul]
  refine ⟨hw', fun k => ?_⟩
  rw [hw] at h1
  have hm := split_moved (T := 1) (by simp) he h1 k
  unfold separateCov
  rw [dif_pos rfl, dif_pos rfl]
  change splitCov (eigh L (c • S)).1 (eigh L (c • S)).2 k = (splitCov (eigh L S).1 (eigh L S).2 k).map _
  rw [hw', split_scale, hm]
  rcases splitCov (eigh L S).1 (eigh L S).2 k with e | p
  · rfl
  · change Except.ok _ = Except.ok _
    simp

/-- **C146** The MUSIC spectrum does not depend on the level, where the eigenvalues of signal and noise subspace differ. -/
theorem C146_music (eigh) {N g : ℕ} (S : Matrix (Fin ((N + 1) ^ 2)) (Fin ((N + 1) ^ 2)) ℝ) {c : ℝ} (hc : 0 < c) (he : EighOf eigh S) (he' : EighOf eigh (c • S))
    (n : ℕ) (h : 1 ≤ n ∧ n < (N + 1) ^ 2) (hgap : (eigh _ S).1 ⟨(N + 1) ^ 2 - n - 1, by omega⟩ < (eigh _ S).1 ⟨(N + 1) ^ 2 - n, by omega⟩) (azi zen : Fin g → ℝ) :
    shMusic eigh (c • S) n azi zen = shMusic eigh S n azi zen := by
  have h1 := eigh_scale hc he'
  have hm := music_moved eigh (fun n M => (c⁻¹ • (eigh n (c • M)).1, (eigh n (c • M)).2)) (T := 1) (C := S) (azi := azi) (zen := zen) (azi' := azi) (zen' := zen)
    ⟨by simp, fun q r h => Matrix.one_apply_ne fun e => h (by rw [e]), by simp⟩ he (by
      unfold EighOf
      simp only
      rw [show c • (1 * S * (1 : Matrix (Fin ((N + 1) ^ 2)) (Fin ((N + 1) ^ 2)) ℝ).transpose) = c • S by simp]
      exact h1) n (by
      intro i j hi hj
      have hb : sliceBound ((N + 1) ^ 2) (-(n : ℤ)) = (N + 1) ^ 2 - n := by unfold sliceBound; split_ifs <;> omega
      rw [hb] at hi hj
      exact ((he.mono (show i ≤ ⟨(N + 1) ^ 2 - n - 1, by omega⟩ from Fin.mk_le_mk.2 (by omega))).trans_lt
        (hgap.trans_le (he.mono (show (⟨(N + 1) ^ 2 - n, by omega⟩ : Fin ((N + 1) ^ 2)) ≤ j from Fin.mk_le_mk.2 (by omega))))).ne)
  rw [← hm, music_eq, music_eq]
  simp

/-! ### The number of sources -/

/-- **C146** fails for `estimate_num_sources`: eigenvalues 1 and 10 count as one source, the same field at a tenth of the power as none. -/
theorem C146_count_fails : estimateNumSources [1, 10] none = .ok 1 ∧ estimateNumSources [0.1, 1] none = .ok 0 := by
  constructor
  · refine C65_jump [1, 10] none 2 (by norm_num) (by norm_num [npVar]) 0 (by norm_num) (by norm_num [Jump]) (by omega)
  · rw [estimate_eq _ (by simp), if_pos]
    norm_num [npVar]

/-- **C146** hence fails for `separate_cov` with its default: the parts at a tenth of the power are not a tenth of the parts. -/
theorem C146_default_fails (eigh) (h1 : EighOf eigh (Matrix.diagonal ![1, 10])) (h2 : EighOf eigh (Matrix.diagonal ![0.1, 1])) :
    separateCov eigh ((0.1 : ℝ) • Matrix.diagonal ![1, 10]) none ≠ (separateCov eigh (Matrix.diagonal ![1, 10]) none).map fun p => ((0.1 : ℝ) • p.1, (0.1 : ℝ) • p.2) := by
  have hd : (0.1 : ℝ) • Matrix.diagonal ![1, 10] = Matrix.diagonal ![(0.1 : ℝ), 1] := by
    rw [← Matrix.diagonal_smul]; congr 1; funext i; fin_cases i <;> norm_num
  have val : ∀ a b : ℝ, a ≤ b → EighOf eigh (Matrix.diagonal ![a, b]) → (eigh 2 (Matrix.diagonal ![a, b])).1 = ![a, b] := by
    intro a b hab he
    have h0 : IsEigh (Matrix.diagonal ![a, b]) ![a, b] 1 := by
      refine ⟨?_, by simp, by simp⟩
      intro i j hij
      fin_cases i <;> fin_cases j <;> first | (exfalso; revert hij; decide) | simp [hab]
    exact eigh_moved_values (T := 1) (by simp) h0 (by simpa using he)
  have pick : ∀ (S : Matrix (Fin 2) (Fin 2) ℝ) (k : ℤ), estimateNumSources (List.ofFn (eigh 2 S).1) none = .ok k → separateCov eigh S none = separateCov eigh S (some k) := by
    intro S k hk
    unfold separateCov
    rw [dif_pos rfl, dif_pos rfl]
    change (estimateNumSources (List.ofFn (eigh 2 S).1) none).bind _ = splitCov (eigh 2 S).1 _ k
    rw [hk]
    rfl
  have e1 := pick (Matrix.diagonal ![1, 10]) 1 (by rw [val 1 10 (by norm_num) h1, show List.ofFn ![(1 : ℝ), 10] = [1, 10] by simp, C146_count_fails.1])
  have e2 := pick (Matrix.diagonal ![0.1, 1]) 0 (by rw [val 0.1 1 (by norm_num) h2, show List.ofFn ![(0.1 : ℝ), 1] = [0.1, 1] by simp, C146_count_fails.2])
  obtain ⟨P, Q, h3, hs, hQ, -⟩ := C64_zero eigh _ h2 (by norm_num)
  obtain ⟨P', Q', h3', -, hP', -⟩ := C64_split eigh (Matrix.diagonal ![(1 : ℝ), 10]) (Matrix.PosSemidef.diagonal fun i => by fin_cases i <;> norm_num) h1 1 le_rfl (by norm_num)
  intro h
  rw [hd, e1, e2, h3] at h
  rw [show ((1 : ℕ) : ℤ) = 1 from rfl] at h3'
  rw [h3'] at h
  have h := (Prod.mk.inj (Except.ok.inj h)).1
  have hn := hP'.diag_nonneg (i := 0)
  have h00 := congrFun (congrFun hs 0) 0
  rw [hQ, val 0.1 1 (by norm_num) h2, h] at h00
  simp at h00
  norm_num at h00
  linarith

theorem npVar_scale (c : ℝ) (w : List ℝ) : npVar (w.map (c * ·)) = c ^ 2 * npVar w := by
  unfold npVar
  rw [List.length_map, List.map_map, List.sum_map_mul_left, List.map_id', ← mul_div_assoc, ← List.sum_map_mul_left]
  congr 2
  refine List.map_congr_left fun x _ => ?_
  show (c * x - c * w.sum / w.length) ^ 2 = _
  ring

/-- **C146** What is left for `estimate_num_sources`: with non-negative eigenvalues of which two neighbours differ by more than the threshold, a higher level never
lowers the estimate. Missing: the estimate may grow, see `C146_count_fails`. -/
theorem C146_count_partial (w : List ℝ) (h0 : ∀ x ∈ w, 0 ≤ x) (a : Option ℝ) (t : ℝ) (ht : t = a.getD (1 + 2 / w.length)) (ht0 : 0 ≤ t) (c : ℝ) (hc : 1 ≤ c)
    (hjump : ∃ j, j + 1 < w.length ∧ Jump t (w.getD j 0) (w.getD (j + 1) 0)) :
    ∃ n n' : ℤ, estimateNumSources w a = .ok n ∧ estimateNumSources (w.map (c * ·)) a = .ok n' ∧ n ≤ n' := by
  classical
  obtain ⟨j, hj, hJ⟩ := hjump
  have hc0 : 0 < c := by linarith
  have hget : ∀ i, (w.map (c * ·)).getD i 0 = c * w.getD i 0 := fun i => by
    simp only [List.getD_eq_getElem?_getD, List.getElem?_map]
    cases w[i]? <;> simp
  have hnn : ∀ i, 0 ≤ w.getD i 0 := fun i => by
    rw [List.getD_eq_getElem?_getD]
    rcases h : w[i]? with _ | x
    · simp
    · exact h0 x (List.mem_of_getElem? h)
  have hmono : ∀ i, Jump t (w.getD i 0) (w.getD (i + 1) 0) → Jump t ((w.map (c * ·)).getD i 0) ((w.map (c * ·)).getD (i + 1) 0) := by
    intro i hi
    rw [hget, hget]
    have h1 := hnn i
    have h2 := hnn (i + 1)
    unfold Jump at hi ⊢
    have p1 : 0 < w.getD i 0 + 10e-8 := by positivity
    have p2 : 0 < c * w.getD i 0 + 10e-8 := by positivity
    refine Or.inr ⟨p2.ne', ?_⟩
    have hi := (hi.resolve_left fun h => p1.ne' h.1).2
    rw [lt_div_iff₀ p1] at hi
    rw [lt_div_iff₀ p2]
    nlinarith [mul_lt_mul_of_pos_left hi hc0, mul_nonneg ht0 (sub_nonneg.2 hc)]
  have hw : w ≠ [] := by rintro rfl; simp at hj
  have hvarnn : 0 ≤ npVar w := div_nonneg (List.sum_nonneg (by simp only [List.mem_map]; rintro _ ⟨x, -, rfl⟩; exact sq_nonneg _)) (Nat.cast_nonneg _)
  have hv : npVar w ≤ npVar (w.map (c * ·)) := by
    rw [npVar_scale]
    nlinarith [one_le_pow₀ hc (n := 2)]
  have hlen : (w.map (c * ·)).length = w.length := List.length_map _
  obtain ⟨j', hj', hF'⟩ : ∃ j', (j' + 1 < w.length ∧ Jump t ((w.map (c * ·)).getD j' 0) ((w.map (c * ·)).getD (j' + 1) 0)) ∧
      ∀ i < j', ¬ (i + 1 < w.length ∧ Jump t ((w.map (c * ·)).getD i 0) ((w.map (c * ·)).getD (i + 1) 0)) :=
    ⟨_, Nat.find_spec (p := fun j' => j' + 1 < w.length ∧ Jump t ((w.map (c * ·)).getD j' 0) ((w.map (c * ·)).getD (j' + 1) 0)) ⟨j, hj, hmono j hJ⟩, fun i hi => Nat.find_min _ hi⟩
  by_cases hlow : npVar w < t
  · obtain ⟨n, hn, -⟩ := C65_range (w.map (c * ·)) a (Or.inl (by rw [hlen]; omega))
    refine ⟨0, n, ?_, hn, Int.natCast_nonneg n⟩
    rw [estimate_eq w hw, ← ht, if_pos hlow]
  · obtain ⟨j0, hj0, hF0⟩ : ∃ j0, (j0 + 1 < w.length ∧ Jump t (w.getD j0 0) (w.getD (j0 + 1) 0)) ∧ ∀ i < j0, ¬ (i + 1 < w.length ∧ Jump t (w.getD i 0) (w.getD (i + 1) 0)) :=
      ⟨_, Nat.find_spec (p := fun j0 => j0 + 1 < w.length ∧ Jump t (w.getD j0 0) (w.getD (j0 + 1) 0)) ⟨j, hj, hJ⟩, fun i hi => Nat.find_min _ hi⟩
    have r1 := C65_jump w a t ht (not_lt.1 hlow) j0 hj0.1 hj0.2 fun i hi h => hF0 i hi ⟨by omega, h⟩
    have r2 := C65_jump (w.map (c * ·)) a t (by rw [hlen]; exact ht) ((not_lt.1 hlow).trans hv) j' (by rw [hlen]; exact hj'.1) hj'.2 fun i hi h => hF' i hi ⟨by omega, h⟩
    refine ⟨_, _, r1, r2, ?_⟩
    have : j' ≤ j0 := by
      by_contra hlt
      exact hF' j0 (by omega) ⟨hj0.1, hmono j0 hj0.2⟩
    simp only [List.length_drop, hlen]
    omega

/-! ### Pseudo intensity -/

theorem zip_scale_right (g : ℝ) : ∀ a b : List ℝ, List.zipWith (· * ·) a (b.map (g * ·)) = (List.zipWith (· * ·) a b).map (g * ·)
  | [], _ => by simp
  | _ :: _, [] => by simp
  | x :: a, y :: b => by
    simp only [List.map_cons, List.zipWith_cons_cons, zip_scale_right g a b]
    rw [mul_left_comm]

theorem zip_scale_left (g : ℝ) : ∀ a b : List ℝ, List.zipWith (· * ·) (a.map (g * ·)) b = (List.zipWith (· * ·) a b).map (g * ·)
  | [], _ => by simp
  | _ :: _, [] => by simp
  | x :: a, y :: b => by
    simp only [List.map_cons, List.zipWith_cons_cons, zip_scale_left g a b]
    rw [mul_assoc]

theorem sum_scale (g : ℝ) : ∀ l : List ℝ, (l.map (g * ·)).sum = g * l.sum
  | [] => by simp
  | x :: l => by rw [List.map_cons, List.sum_cons, List.sum_cons, sum_scale g l]; ring

theorem trapz_scale (g : ℝ) (x : List ℝ) : trapz (x.map (g * ·)) = g * trapz x := by
  unfold trapz
  rw [← List.map_tail, List.zipWith_map, ← sum_scale, List.map_zipWith]
  congr 2
  funext a b
  ring

theorem windowed_scale (g : ℝ) (win W X : List ℝ) (i : ℕ) : windowed win (W.map (g * ·)) (X.map (g * ·)) i = g ^ 2 * windowed win W X i := by
  unfold windowed
  rw [← List.map_drop, ← List.map_take, ← List.map_drop, ← List.map_take, zip_scale_right, zip_scale_right, zip_scale_left, trapz_scale, trapz_scale]
  ring

theorem intensity_scale (g : ℝ) (win W X Y Z : List ℝ) (t : ℕ) (c : Fin 3) :
    applyWrites (allWrites (W.map (g * ·)).length win (W.map (g * ·)) (X.map (g * ·)) (Y.map (g * ·)) (Z.map (g * ·))) (t, c) =
      g ^ 2 * applyWrites (allWrites W.length win W X Y Z) (t, c) := by
  have h1 := applyWrites_all W.length win W X Y Z t
  have h2 := applyWrites_all (W.map (g * ·)).length win (W.map (g * ·)) (X.map (g * ·)) (Y.map (g * ·)) (Z.map (g * ·)) t
  simp only [List.length_map] at h1 h2 ⊢
  split_ifs at h1 h2 with hc
  · fin_cases c
    · exact (h2.1.trans (windowed_scale g _ _ _ _)).trans (congrArg _ h1.1.symm)
    · exact (h2.2.1.trans (windowed_scale g _ _ _ _)).trans (congrArg _ h1.2.1.symm)
    · exact (h2.2.2.trans (windowed_scale g _ _ _ _)).trans (congrArg _ h1.2.2.symm)
  · rw [h2, h1]; ring

theorem cart2sph_scale {k : ℝ} (hk : 0 < k) (x y z : ℝ) :
    let s := cart2sph x y z false true
    let s' := cart2sph (k * x) (k * y) (k * z) false true
    s'.1 = s.1 ∧ s'.2.2 = k * s.2.2 ∧ (10e-15 ≤ s.2.2 → 10e-15 ≤ s'.2.2 → s'.2.1 = s.2.1) := by
  intro s s'
  have hr : s'.2.2 = k * s.2.2 := by
    show √((k * x) ^ 2 + (k * y) ^ 2 + (k * z) ^ 2) = k * √(x ^ 2 + y ^ 2 + z ^ 2)
    rw [show (k * x) ^ 2 + (k * y) ^ 2 + (k * z) ^ 2 = k ^ 2 * (x ^ 2 + y ^ 2 + z ^ 2) by ring, Real.sqrt_mul (sq_nonneg k), Real.sqrt_sq hk.le]
  refine ⟨?_, hr, fun h h' => ?_⟩
  · show Complex.arg ⟨k * x, k * y⟩ = Complex.arg ⟨x, y⟩
    rw [show (⟨k * x, k * y⟩ : ℂ) = (k : ℂ) * ⟨x, y⟩ by apply Complex.ext <;> simp, Complex.arg_real_mul _ hk]
  · show arccos (k * z / max s'.2.2 10e-15) = arccos (z / max s.2.2 10e-15)
    rw [max_eq_left h, max_eq_left h', hr, mul_div_mul_left _ _ hk.ne']

/-- **C146** A gain on all four channels leaves the azimuths of `pseudo_intensity` as they are, multiplies the radii by its square and leaves the zeniths as they are wherever
the radius is at least `10e-15` at both levels; with and without smoothing, for every number of jobs and schedule. -/
theorem C146_intensity (cpus cpus' : ℕ) {g : ℝ} (hg : g ≠ 0) (W X Y Z : List ℝ) (winLen order : ℕ) (jobs jobs' : Option ℤ) (hj : 1 ≤ jobs.getD cpus)
    (hj' : 1 ≤ jobs'.getD cpus') (out out' : Py (List (ℝ × ℝ × ℝ))) (hr : PseudoIntensity cpus W X Y Z winLen order jobs out)
    (hr' : PseudoIntensity cpus' (W.map (g * ·)) (X.map (g * ·)) (Y.map (g * ·)) (Z.map (g * ·)) winLen order jobs' out') :
    (∃ e, out = .error e ∧ out' = .error e) ∨ ∃ l l' : List (ℝ × ℝ × ℝ), out = .ok l ∧ out' = .ok l' ∧ l.length = W.length ∧ l'.length = W.length ∧
      ∀ (t : ℕ) (s s' : ℝ × ℝ × ℝ), l[t]? = some s → l'[t]? = some s' →
        s'.1 = s.1 ∧ s'.2.2 = g ^ 2 * s.2.2 ∧ (10e-15 ≤ s.2.2 → 10e-15 ≤ s'.2.2 → s'.2.1 = s.2.1) := by
  have hk : 0 < g ^ 2 := by positivity
  by_cases hodd : winLen % 2 = 0
  · left
    refine ⟨.assertionError, C63_schedule cpus cpus W X Y Z winLen order jobs jobs hj hj _ _ hr (.evenWindow hodd), C63_schedule cpus' cpus' _ _ _ _ winLen order jobs' jobs' hj' hj' _ _ hr' (.evenWindow hodd)⟩
  have h1 := C63_schedule cpus 1 W X Y Z winLen order jobs (some 1) hj le_rfl _ _ hr (.serial (by omega) rfl)
  have h2 := C63_schedule cpus' 1 _ _ _ _ winLen order jobs' (some 1) hj' le_rfl _ _ hr' (.serial (by omega) rfl)
  have hI := intensity_scale g (hanning winLen) W X Y Z
  obtain ⟨I, hIe⟩ : ∃ I, I = applyWrites (allWrites W.length (hanning winLen) W X Y Z) := ⟨_, rfl⟩
  obtain ⟨I', hIe'⟩ : ∃ I', I' = applyWrites (allWrites (W.map (g * ·)).length (hanning winLen) (W.map (g * ·)) (X.map (g * ·)) (Y.map (g * ·)) (Z.map (g * ·))) := ⟨_, rfl⟩
  rw [← hIe] at h1 hI
  rw [← hIe'] at h2 hI
  unfold intensityOut at h1 h2
  simp only [List.length_map] at h1 h2
  split_ifs at h1 h2 with ho hev
  · right
    refine ⟨_, _, h1, h2, by simp, by simp, fun t s s' hs hs' => ?_⟩
    simp only [List.getElem?_map, Option.map_eq_some_iff] at hs hs'
    obtain ⟨k, hk1, rfl⟩ := hs
    obtain ⟨k', hk', rfl⟩ := hs'
    rw [hk1] at hk'
    obtain rfl := Option.some.inj hk'
    rw [hI, hI, hI]
    exact cart2sph_scale hk _ _ _
  · left
    exact ⟨_, h1, h2⟩
  · right
    refine ⟨_, _, h1, h2, by simp, by simp, fun t s s' hs hs' => ?_⟩
    simp only [List.getElem?_map, Option.map_eq_some_iff] at hs hs'
    obtain ⟨k, hk1, rfl⟩ := hs
    obtain ⟨k', hk', rfl⟩ := hs'
    rw [hk1] at hk'
    obtain rfl := Option.some.inj hk'
    have hsm := smooth_turn ((g ^ 2) • (1 : Mat3)) order W.length I I' (by
      intro t c
      rw [hI]
      fin_cases c <;> simp) k
    have hs : ∀ c : Fin 3, (smoothColumn order ((List.range W.length).map fun t => I' (t, c))).getD k 0 = g ^ 2 * (smoothColumn order ((List.range W.length).map fun t => I (t, c))).getD k 0 := by
      intro c
      rw [hsm c]
      fin_cases c <;> simp
    rw [hs, hs, hs]
    exact cart2sph_scale hk _ _ _

/-! ### Energy vector, decay, loudness, interaural time difference -/

/-- **C146** The energy vector does not depend on the level of the gains. -/
theorem C146_energy_vector {Q : ℕ} {c : ℝ} (hc : c ≠ 0) (p : Fin Q → Vec3) (g : Fin Q → ℝ) : rE p (c • g) = rE p g := by
  have hs : ∑ q, (c • g) q ^ 2 = c ^ 2 * ∑ q, g q ^ 2 := by
    rw [Finset.mul_sum]; exact Finset.sum_congr rfl fun q _ => by simp only [Pi.smul_apply, smul_eq_mul]; ring
  have hv : (if ∑ q, (c • g) q ^ 2 = 0 then (none : Option (Fin 3 → ℝ)) else some fun d => 1 / (∑ q, (c • g) q ^ 2) * ∑ q, (c • g) q ^ 2 * p q d) =
      if ∑ q, g q ^ 2 = 0 then none else some fun d => 1 / (∑ q, g q ^ 2) * ∑ q, g q ^ 2 * p q d := by
    by_cases h : ∑ q, g q ^ 2 = 0
    · rw [if_pos h, if_pos (by rw [hs, h, mul_zero])]
    · rw [if_neg h, if_neg (by rw [hs]; exact mul_ne_zero (pow_ne_zero _ hc) h)]
      congr 1
      funext d
      rw [hs, show ∑ q, (c • g) q ^ 2 * p q d = c ^ 2 * ∑ q, g q ^ 2 * p q d by
        rw [Finset.mul_sum]; exact Finset.sum_congr rfl fun q _ => by simp only [Pi.smul_apply, smul_eq_mul]; ring]
      field_simp
  unfold rE
  simp only
  rw [hv]

theorem trapzSq_scale (g : ℝ) (p : List ℝ) : trapzSq (p.map (g * ·)) = g ^ 2 * trapzSq p := by
  unfold trapzSq
  rw [← List.map_tail, List.zipWith_map, ← sum_scale, List.map_zipWith]
  congr 2
  funext a b
  ring

/-- **C146** The energy decay curve does not depend on the level. (A vanishing total divides by zero in the code and is excluded.) -/
theorem C146_decay {g : ℝ} (hg : g ≠ 0) (p : List ℝ) (_hp : trapzSq p ≠ 0) : energyDecay (p.map (g * ·)) = energyDecay p := by
  unfold energyDecay
  rw [List.length_map]
  refine List.map_congr_left fun i _ => congrArg dB10 ?_
  rw [trapzSq_scale, ← List.map_drop, List.map_map]
  have : ((p.drop i).map ((· ^ 2) ∘ (g * ·))).sum = g ^ 2 * ((p.drop i).map (· ^ 2)).sum := by
    rw [← List.sum_map_mul_left]
    congr 1
    refine List.map_congr_left fun x _ => ?_
    show (g * x) ^ 2 = g ^ 2 * x ^ 2
    ring
  rw [this, mul_div_mul_left _ _ (pow_ne_zero _ hg)]

theorem foldl_max_scale {g : ℝ} (hg : 0 ≤ g) : ∀ (l : List ℝ) (v : ℝ), (l.map (g * ·)).foldl max (g * v) = g * l.foldl max v
  | [], _ => rfl
  | x :: l, v => by
    rw [List.map_cons, List.foldl_cons, List.foldl_cons, ← mul_max_of_nonneg _ _ hg, foldl_max_scale hg l]

theorem loudest_scale {n c : ℕ} {g : ℝ} (hg : 0 ≤ g) (x : Matrix (Fin n) (Fin c) ℝ) : loudest (g • x) = (loudest x).map (g * ·) := by
  have h : ((List.finRange c).map fun j => √((∑ i, (g • x) i j ^ 2) / n)) = ((List.finRange c).map fun j => √((∑ i, x i j ^ 2) / n)).map (g * ·) := by
    rw [List.map_map]
    refine List.map_congr_left fun j _ => ?_
    show _ = g * √((∑ i, x i j ^ 2) / n)
    rw [show (∑ i, (g • x) i j ^ 2) / (n : ℝ) = g ^ 2 * ((∑ i, x i j ^ 2) / n) by
      rw [← mul_div_assoc, Finset.mul_sum]; congr 1; exact Finset.sum_congr rfl fun i _ => by simp only [Matrix.smul_apply, smul_eq_mul]; ring,
      Real.sqrt_mul (sq_nonneg g), Real.sqrt_sq hg]
  unfold loudest
  rw [h]
  rcases (List.finRange c).map fun j => √((∑ i, x i j ^ 2) / n) with _ | ⟨v, vs⟩
  · rfl
  · exact congrArg Except.ok (foldl_max_scale hg vs v)

/-- **C146** The result of `match_loudness` does not depend on the level of the input. (A silent input divides by zero in the code and is excluded.) -/
theorem C146_match {n m c d : ℕ} {g : ℝ} (hg : 0 < g) (x : Matrix (Fin n) (Fin c) ℝ) (_hx : ∃ i j, x i j ≠ 0) (target : Matrix (Fin m) (Fin d) ℝ) :
    matchLoudness (g • x) target = matchLoudness x target := by
  unfold matchLoudness
  rw [loudest_scale hg.le]
  rcases loudest x with e | lin
  · rfl
  · change (loudest target).bind _ = (loudest target).bind _
    rcases loudest target with e | lt
    · rfl
    · have : (fun i j => (g • x) i j * lt / (g * lin)) = fun i j => x i j * lt / lin := by
        funext i j
        simp only [Matrix.smul_apply, smul_eq_mul]
        rw [mul_assoc, mul_div_mul_left _ _ hg.ne']
      change (peakOf (fun i j => (g • x) i j * lt / (g * lin))).map (fun peak : ℝ => if peak > 1 then fun i j => (g • x) i j * lt / (g * lin) / peak else fun i j => (g • x) i j * lt / (g * lin)) = _
      have h2 : ∀ i j, (g • x) i j * lt / (g * lin) = x i j * lt / lin := fun i j => congrFun (congrFun this i) j
      simp only [h2]
      rfl

theorem argmaxAux_scale {c : ℝ} (hc : 0 < c) : ∀ (l : List ℝ) (i best : ℕ) (bv : ℝ), argmaxAux (l.map (c * ·)) i best (c * bv) = argmaxAux l i best bv
  | [], _, _, _ => rfl
  | x :: l, i, best, bv => by
    rw [List.map_cons]
    unfold argmaxAux
    simp only [mul_lt_mul_iff_right₀ hc]
    split_ifs
    · exact argmaxAux_scale hc l _ _ _
    · exact argmaxAux_scale hc l _ _ _

theorem npArgmax_scale {c : ℝ} (hc : 0 < c) (l : List ℝ) : npArgmax (l.map (c * ·)) = npArgmax l := by
  cases l with
  | nil => rfl
  | cons x l => exact congrArg Except.ok (argmaxAux_scale hc l 1 0 x)

theorem itdOf_scale {g k : ℝ} (hg : g ≠ 0) (hk : k ≠ 0) (fs : ℝ) (l r : List ℝ) : itdOf fs (l.map (g * ·)) (r.map (k * ·)) = itdOf fs l r := by
  have hsq : ∀ (c : ℝ) (x : List ℝ), (x.map (c * ·)).map (· ^ 2) = (x.map (· ^ 2)).map (c ^ 2 * ·) := fun c x => by
    rw [List.map_map, List.map_map]
    refine List.map_congr_left fun y _ => ?_
    show (c * y) ^ 2 = c ^ 2 * y ^ 2
    ring
  have hget : ∀ (c : ℝ) (x : List ℝ) (i : ℕ), (x.map (c * ·)).getD i 0 = c * x.getD i 0 := fun c x i => by
    simp only [List.getD_eq_getElem?_getD, List.getElem?_map]
    cases x[i]? <;> simp
  have hcorr : ∀ (a b : ℝ) (x y : List ℝ), correlateSame (x.map (a * ·)) (y.map (b * ·)) = (correlateSame x y).map fun z => z.map (a * b * ·) := by
    intro a b x y
    unfold correlateSame
    simp only [List.map_eq_nil_iff]
    split_ifs with h
    · rfl
    · refine congrArg Except.ok ?_
      beta_reduce
      rw [List.length_map, List.map_map]
      refine List.map_congr_left fun i _ => ?_
      show corrAt _ _ _ = a * b * corrAt x y _
      unfold corrAt
      rw [Finset.mul_sum, List.length_map]
      refine Finset.sum_congr rfl fun m _ => ?_
      rw [hget]
      unfold sampleAt
      split_ifs
      · rw [hget]; ring
      · ring
  unfold itdOf
  rw [hsq, hsq, hcorr, List.length_map]
  rcases correlateSame (l.map (· ^ 2)) (r.map (· ^ 2)) with e | z
  · rfl
  · change (npArgmax (z.map (g ^ 2 * k ^ 2 * ·))).map _ = (npArgmax z).map _
    rw [npArgmax_scale (by positivity)]

/-- **C146** The interaural time differences do not depend on the levels of the two ears, given that resampling and band-pass are linear. -/
theorem C146_itd (rs : Resampler) (bp : BandPass) (h : HRIRs) (fc : ℝ × ℝ) (up : ℝ) {g k : ℝ} (hg : g ≠ 0) (hk : k ≠ 0)
    (hrs : ∀ (c : ℝ) (x : List ℝ), rs.run h.fs (up * h.fs) (x.map (c * ·)) = (rs.run h.fs (up * h.fs) x).map (c * ·))
    (hlin : ∀ (c : ℝ) (x : List ℝ), bp.run (up * h.fs) fc (x.map (c * ·)) = (bp.run (up * h.fs) fc x).map fun y => y.map (c * ·))
    (v : List ℝ) (hv : itdsFromHrirs rs bp h fc up = .ok v) :
    itdsFromHrirs rs bp { h with left := amplify g h.left, right := amplify k h.right } fc up = .ok v := by
  have hmap : ∀ (c : ℝ) (rows : List (List ℝ)), (rows.map fun x => x.map (c * ·)).map (rs.run h.fs (up * h.fs)) = (rows.map (rs.run h.fs (up * h.fs))).map fun x => x.map (c * ·) := by
    intro c rows
    rw [List.map_map, List.map_map]
    exact List.map_congr_left fun x _ => hrs c x
  unfold itdsFromHrirs at hv ⊢
  simp only at hv ⊢
  rcases hl : (h.left.rows.map (rs.run h.fs (up * h.fs))).mapM (bp.run (up * h.fs) fc) with e | l
  · rw [hl] at hv; cases hv
  rcases hr : (h.right.rows.map (rs.run h.fs (up * h.fs))).mapM (bp.run (up * h.fs) fc) with e | r
  · rw [hl, hr] at hv; cases hv
  rw [hl, hr] at hv
  simp only [amplify, hmap, mapM_amplify _ g (hlin g) _ _ hl, mapM_amplify _ k (hlin k) _ _ hr]
  change (l.zip r).mapM _ = _ at hv
  change ((l.map fun y => y.map (g * ·)).zip (r.map fun y => y.map (k * ·))).mapM _ = _
  rw [← hv, List.zip_map, List.mapM_map]
  refine congrArg (fun F => (l.zip r).mapM F) (funext fun p => ?_)
  exact itdOf_scale hg hk _ p.1 p.2

/-! #### examples -/

/-- `C146_mvdr`, `C146_lcmv`: a covariance of four channels that can be inverted, at four times the power. -/
example : (4 : ℝ) ≠ 0 ∧ (∃ W, shMvdr (Matrix.diagonal ![(1 : ℝ), 2, 3, 4]) ![0] ![π / 2] = .ok W) ∧
    shLcmv ((4 : ℝ) • Matrix.diagonal ![(1 : ℝ), 2, 3, 4]) [0] [π / 2] [1] = shLcmv (Matrix.diagonal ![(1 : ℝ), 2, 3, 4]) [0] [π / 2] [1] := by
  refine ⟨by norm_num, ?_, C146_lcmv (by norm_num) _ _ _ _⟩
  have hS : (Matrix.diagonal ![(1 : ℝ), 2, 3, 4]).PosDef := Matrix.PosDef.diagonal fun i => by fin_cases i <;> norm_num
  unfold shMvdr
  rw [dif_pos rfl]
  change ∃ W, (npInv (Matrix.diagonal ![(1 : ℝ), 2, 3, 4])).bind _ = .ok W
  rw [npInv_ok _ hS]
  change ∃ W, (steerMat ((1 + 1) ^ 2) _ _).map _ = .ok W
  rw [steerMat_ok]
  exact ⟨_, rfl⟩

/-- `C146_separation`, `C146_music`: a strong channel, twice the power; the condition on the eigenvalues holds. -/
example : ∃ eigh : (n : ℕ) → Matrix (Fin n) (Fin n) ℝ → (Fin n → ℝ) × Matrix (Fin n) (Fin n) ℝ,
    shMusic (g := 1) eigh ((2 : ℝ) • Matrix.diagonal ![(1 : ℝ), 1, 1, 3]) (1 : ℕ) ![0] ![π / 2] = shMusic eigh (Matrix.diagonal ![(1 : ℝ), 1, 1, 3]) (1 : ℕ) ![0] ![π / 2] ∧
    (eigh 4 ((2 : ℝ) • Matrix.diagonal ![(1 : ℝ), 1, 1, 3])).1 = (2 : ℝ) • (eigh 4 (Matrix.diagonal ![(1 : ℝ), 1, 1, 3])).1 := by
  obtain ⟨eigh, he⟩ := eigh_exists
  have hs : (Matrix.diagonal ![(1 : ℝ), 1, 1, 3]).transpose = Matrix.diagonal ![(1 : ℝ), 1, 1, 3] := Matrix.diagonal_transpose _
  have h1 := he 4 _ hs
  have h2 := he 4 ((2 : ℝ) • Matrix.diagonal ![(1 : ℝ), 1, 1, 3]) (by rw [Matrix.transpose_smul, hs])
  have h0 : IsEigh (Matrix.diagonal ![(1 : ℝ), 1, 1, 3]) ![1, 1, 1, 3] 1 := by
    refine ⟨?_, by simp, by simp⟩
    intro i j hij
    fin_cases i <;> fin_cases j <;> first | (exfalso; revert hij; decide) | norm_num
  have hv := eigh_moved_values (T := 1) (by simp) h0 (by simpa using h1)
  refine ⟨eigh, C146_music (N := 1) eigh (Matrix.diagonal ![(1 : ℝ), 1, 1, 3]) two_pos h1 h2 1 ⟨le_rfl, by norm_num⟩ ?_ _ _, (C146_separation eigh _ two_pos h1 h2).1⟩
  change (eigh 4 (Matrix.diagonal ![(1 : ℝ), 1, 1, 3])).1 2 < (eigh 4 (Matrix.diagonal ![(1 : ℝ), 1, 1, 3])).1 3
  rw [hv]
  show (1 : ℝ) < 3
  norm_num

/-- `C146_default_fails`: there is such a routine. -/
example : ∃ eigh : (n : ℕ) → Matrix (Fin n) (Fin n) ℝ → (Fin n → ℝ) × Matrix (Fin n) (Fin n) ℝ, EighOf eigh (Matrix.diagonal ![1, 10]) ∧ EighOf eigh (Matrix.diagonal ![0.1, 1]) := by
  obtain ⟨eigh, he⟩ := eigh_exists
  exact ⟨eigh, he _ _ (Matrix.diagonal_transpose _), he _ _ (Matrix.diagonal_transpose _)⟩

/-- `C146_count_partial`: eigenvalues 0.1 and 1, whose ratio exceeds the default threshold, at ten times the power. -/
example : ∃ n n' : ℤ, estimateNumSources [0.1, 1] none = .ok n ∧ estimateNumSources ([0.1, 1].map ((10 : ℝ) * ·)) none = .ok n' ∧ n ≤ n' :=
  C146_count_partial [0.1, 1] (by simp; norm_num) none 2 (by norm_num) (by norm_num) 10 (by norm_num) ⟨0, by simp, by norm_num [Jump]⟩

/-- `C146_intensity`: a run of a signal and one of half its level. -/
example : ∃ out out', PseudoIntensity 4 [1, 2, 1] [1, 2, 1] [0, 0, 0] [0, 0, 0] 3 0 (some 1) out ∧
    PseudoIntensity 8 ([1, 2, 1].map ((0.5 : ℝ) * ·)) ([1, 2, 1].map ((0.5 : ℝ) * ·)) ([0, 0, 0].map ((0.5 : ℝ) * ·)) ([0, 0, 0].map ((0.5 : ℝ) * ·)) 3 0 (some 1) out' :=
  ⟨_, _, .serial (by norm_num) rfl, .serial (by norm_num) rfl⟩

/-- `C146_decay`, `C146_match`: signals that are not silent. -/
example : trapzSq [1, 2, 1] ≠ 0 ∧ ∃ i j, (!![1, 2; 0, 1] : Matrix (Fin 2) (Fin 2) ℝ) i j ≠ 0 := ⟨by norm_num [trapzSq], 0, 0, by norm_num⟩

/-- `C146_itd`: the right ear one sample late and half as loud. -/
example : itdsFromHrirs keepRate passAll { lateRight with left := amplify 3 lateRight.left, right := amplify 0.5 lateRight.right } (100, 1500) 1 = .ok [1 / 48000] :=
  C146_itd keepRate passAll lateRight (100, 1500) 1 (by norm_num) (by norm_num) (fun _ _ => rfl) (fun _ _ => rfl) _ lateRight_ok

/-- `C146_energy_vector`: six decibels more. -/
example : rE ![![1, 0, 0], ![0, 1, 0]] ((2 : ℝ) • ![3, 4]) = rE ![![1, 0, 0], ![0, 1, 0]] ![3, 4] :=
  C146_energy_vector (by norm_num) ![![1, 0, 0], ![0, 1, 0]] ![3, 4]

end Verif.Props
