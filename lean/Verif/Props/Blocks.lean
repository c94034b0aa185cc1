import Verif.Props.Superposition
import Mathlib.Tactic

/-!
C142: block processing. Encoding, transforms, rotation, conversion and decoding treat every sample by itself, so signals may be processed in blocks;
`binauralize` is time invariant, and the responses of consecutive blocks overlap and add, up to its gate at `10e-6`.
-/

namespace Verif.Props
open Real Verif.Decoder Verif.Sph Verif.Sig Verif.Utils

/-- Selecting, repeating or reordering samples (columns) commutes with `f`: a sample of the result depends on the same sample of the input only. -/
def Instant {K Q : ℕ} (f : (S : ℕ) → Matrix (Fin K) (Fin S) ℝ → Py (Matrix (Fin Q) (Fin S) ℝ)) : Prop :=
  ∀ (S n : ℕ) (x : Matrix (Fin K) (Fin S) ℝ) (τ : Fin n → Fin S), f n (x.submatrix id τ) = (f S x).map fun a => a.submatrix id τ

/-- The same for functions whose shapes are known at run time only and whose samples are columns. -/
def InstantCols (f : NpMat → Py NpMat) : Prop :=
  ∀ (R S n : ℕ) (x : Matrix (Fin R) (Fin S) ℝ) (τ : Fin n → Fin S),
    (∃ e, f ⟨R, S, x⟩ = .error e ∧ f ⟨R, n, x.submatrix id τ⟩ = .error e) ∨
    ∃ (R' : ℕ) (a : Matrix (Fin R') (Fin S) ℝ), f ⟨R, S, x⟩ = .ok ⟨R', S, a⟩ ∧ f ⟨R, n, x.submatrix id τ⟩ = .ok ⟨R', n, a.submatrix id τ⟩

/-- The same for samples in rows. -/
def InstantRows (f : NpMat → Py NpMat) : Prop :=
  ∀ (S C n : ℕ) (x : Matrix (Fin S) (Fin C) ℝ) (τ : Fin n → Fin S),
    (∃ e, f ⟨S, C, x⟩ = .error e ∧ f ⟨n, C, x.submatrix τ id⟩ = .error e) ∨
    ∃ (C' : ℕ) (a : Matrix (Fin S) (Fin C') ℝ), f ⟨S, C, x⟩ = .ok ⟨S, C', a⟩ ∧ f ⟨n, C, x.submatrix τ id⟩ = .ok ⟨n, C', a.submatrix τ id⟩

/-- Two blocks of samples one after the other. -/
def blocks {K m n : ℕ} (x : Matrix (Fin K) (Fin m) ℝ) (y : Matrix (Fin K) (Fin n) ℝ) : Matrix (Fin K) (Fin (m + n)) ℝ := fun k => Fin.append (x k) (y k)

/-- **C142** Two blocks processed one after the other give the two parts of the result for the whole signal; if a block is rejected, so is the whole signal. -/
theorem C142_blocks {K Q : ℕ} {f : (S : ℕ) → Matrix (Fin K) (Fin S) ℝ → Py (Matrix (Fin Q) (Fin S) ℝ)} (hf : Instant f) {m n : ℕ} (x : Matrix (Fin K) (Fin m) ℝ)
    (y : Matrix (Fin K) (Fin n) ℝ) : f (m + n) (blocks x y) = (do let a ← f m x; let b ← f n y; return blocks a b) := by
  have hx : (blocks x y).submatrix id (Fin.castAdd n) = x := by ext k s; exact Fin.append_left _ _ _
  have hy : (blocks x y).submatrix id (Fin.natAdd m) = y := by ext k s; exact Fin.append_right _ _ _
  have h1 := hf _ _ (blocks x y) (Fin.castAdd n)
  have h2 := hf _ _ (blocks x y) (Fin.natAdd m)
  rw [hx] at h1
  rw [hy] at h2
  rw [h1, h2]
  cases f (m + n) (blocks x y) with
  | error e => rfl
  | ok a =>
    show Except.ok _ = Except.ok _
    congr 1
    ext k s
    refine Fin.addCases (fun i => ?_) (fun i => ?_) s
    · unfold blocks; rw [Fin.append_left]; rfl
    · unfold blocks; rw [Fin.append_right]; rfl

/-- **C142** `src_to_sh`, `sht` and `inverse_sht` work sample by sample. -/
theorem C142_transforms {n K Q : ℕ} (azi zen : Fin n → ℝ) (N : ℕ) (Y : Matrix (Fin Q) (Fin K) ℝ) (w : Option (Fin Q → ℝ)) (No : Option ℕ) :
    (Instant fun S (x : Matrix (Fin n) (Fin S) ℝ) => .ok (srcToSh x azi zen N)) ∧ (Instant fun S (x : Matrix (Fin Q) (Fin S) ℝ) => .ok (sht Y w x)) ∧
      Instant fun S (F : Matrix (Fin K) (Fin S) ℝ) => inverseSht F azi zen No := by
  refine ⟨fun S n x τ => rfl, fun S n x τ => ?_, fun S n x τ => ?_⟩
  · cases w with
    | none => rfl
    | some w => rfl
  · unfold inverseSht
    by_cases h0 : No = none ∧ K = 0
    · simp only [if_pos h0]; rfl
    · simp only [if_neg h0]
      cases No with
      | none =>
        simp only
        split_ifs <;> rfl
      | some N =>
        simp only
        split_ifs <;> rfl

/-- **C142** `sht_lstsq`: least squares of least norm works sample by sample, also when the directions do not determine the coefficients. -/
theorem C142_sht_lstsq {Q : ℕ} (lstsq : (S K : ℕ) → Matrix (Fin Q) (Fin K) ℝ → Matrix (Fin Q) (Fin S) ℝ → Matrix (Fin K) (Fin S) ℝ)
    (hl : ∀ S K A b, IsLstsq A b (lstsq S K A b)) (N : ℕ) (azi zen : Fin Q → ℝ) :
    Instant fun S (f : Matrix (Fin Q) (Fin S) ℝ) => .ok (shtLstsq (lstsq S) f N azi zen) := by
  intro S n f τ
  show Except.ok _ = Except.ok _
  congr 1
  unfold shtLstsq
  obtain ⟨A, hA⟩ : ∃ A, A = shMat N azi zen := ⟨_, rfl⟩
  rw [← hA]
  have hx := hl _ _ A (f.submatrix id τ)
  have hy := hl _ _ A f
  obtain ⟨x, ex⟩ : ∃ x, x = lstsq n _ A (f.submatrix id τ) := ⟨_, rfl⟩
  obtain ⟨y, ey⟩ : ∃ y, y = lstsq S _ A f := ⟨_, rfl⟩
  rw [← ex] at hx ⊢
  rw [← ey] at hy ⊢
  ext k s
  obtain ⟨x1, x2⟩ := lstsq_orthogonal hx s
  obtain ⟨y1, y2⟩ := lstsq_orthogonal hy (τ s)
  obtain ⟨d, hd⟩ : ∃ d : Fin ((N + 1) ^ 2) → ℝ, d = (fun k => x k s) - fun k => y k (τ s) := ⟨_, rfl⟩
  have hAd : A.mulVec d = (A.mulVec fun k => x k s) - A.mulVec fun k => y k (τ s) := by rw [hd, Matrix.mulVec_sub]
  have h1 : ∑ q, (A.mulVec d) q ^ 2 = 0 := by
    have : ∑ q, (A.mulVec d) q ^ 2 = ∑ q, (A.mulVec d) q * ((A.mulVec fun k => x k s) q - f.submatrix id τ q s) - ∑ q, (A.mulVec d) q * ((A.mulVec fun k => y k (τ s)) q - f q (τ s)) := by
      rw [← Finset.sum_sub_distrib]
      refine Finset.sum_congr rfl fun q _ => ?_
      have := congrFun hAd q
      simp only [Pi.sub_apply] at this
      rw [pow_two]
      nth_rw 2 [this]
      simp only [Matrix.submatrix_apply, id]
      ring
    rw [this, x1, y1, sub_zero]
  have h2 : A.mulVec d = 0 := by
    funext q
    have := (Finset.sum_eq_zero_iff_of_nonneg fun q _ => sq_nonneg ((A.mulVec d) q)).1 h1 q (Finset.mem_univ _)
    exact pow_eq_zero_iff (two_ne_zero) |>.1 this
  have h3 : ∑ k, d k ^ 2 = 0 := by
    have : ∑ k, d k ^ 2 = ∑ k, d k * x k s - ∑ k, d k * y k (τ s) := by
      rw [← Finset.sum_sub_distrib]
      refine Finset.sum_congr rfl fun q _ => ?_
      have := congrFun hd q
      simp only [Pi.sub_apply] at this
      rw [pow_two]
      nth_rw 2 [this]
      ring
    rw [this, x2 d h2, y2 d h2, sub_zero]
  have := (Finset.sum_eq_zero_iff_of_nonneg fun q _ => sq_nonneg (d q)).1 h3 k (Finset.mem_univ _)
  have := pow_eq_zero_iff (two_ne_zero) |>.1 this
  rw [hd] at this
  exact sub_eq_zero.1 this

theorem instant_truncated {K R N : ℕ} (D : Matrix (Fin R) (Fin ((N + 1) ^ 2)) ℝ) : Instant fun S (F : Matrix (Fin K) (Fin S) ℝ) => applyTruncated D F := by
  intro S n x τ
  unfold applyTruncated
  split_ifs <;> rfl

theorem instant_order {K Q : ℕ} (o : Py ℕ) (f : ℕ → (S : ℕ) → Matrix (Fin K) (Fin S) ℝ → Py (Matrix (Fin Q) (Fin S) ℝ)) (hf : ∀ N, Instant (f N)) :
    Instant fun S F => o.bind fun N => f N S F := by
  intro S n x τ
  cases o with
  | error e => rfl
  | ok N => exact hf N S n x τ

/-- **C142** The decoders `sad`, `mad` and `epad` work sample by sample. -/
theorem C142_decoders {L K : ℕ} (lstsq : Mat3 → Mat3) (pinv : {m n : ℕ} → Matrix (Fin m) (Fin n) ℝ → Matrix (Fin n) (Fin m) ℝ)
    (svd : {m n : ℕ} → Matrix (Fin m) (Fin n) ℝ → Matrix (Fin m) (Fin m) ℝ × Matrix (Fin n) (Fin n) ℝ) (h : Hull L) (No : Option ℕ) :
    (Instant fun S (F : Matrix (Fin K) (Fin S) ℝ) => sad lstsq F h No) ∧ (Instant fun S (F : Matrix (Fin K) (Fin S) ℝ) => mad lstsq pinv F h No) ∧
      Instant fun S (F : Matrix (Fin K) (Fin S) ℝ) => epad lstsq svd F h No :=
  ⟨instant_order _ _ fun _ => instant_truncated _, instant_order _ _ fun _ => instant_truncated _, instant_order _ _ fun _ => instant_truncated _⟩

/-! #### rotation and format conversions -/

theorem matmul_cols (A : NpMat) : InstantCols fun F => A.matmul F := by
  intro R S n x τ
  unfold NpMat.matmul
  by_cases h : A.cols = R
  · exact .inr ⟨A.rows, _, dif_pos h, dif_pos h⟩
  · exact .inl ⟨.valueError, dif_neg h, dif_neg h⟩

theorem matmul_rows (A : NpMat) : InstantRows fun F => F.matmul A := by
  intro S C n x τ
  unfold NpMat.matmul
  by_cases h : C = A.rows
  · exact .inr ⟨A.cols, _, dif_pos h, dif_pos h⟩
  · exact .inl ⟨.valueError, dif_neg h, dif_neg h⟩

/-- **C142** `rotate_sh`, whose samples are rows. -/
theorem C142_rotate (yaw pitch roll : ℝ) (ty : ShType) : InstantRows fun F => rotateSh F yaw pitch roll ty := by
  intro S C n x τ
  unfold rotateSh
  cases ty with
  | complex => exact .inl ⟨_, rfl, rfl⟩
  | other => exact .inl ⟨_, rfl, rfl⟩
  | real =>
    by_cases h : √(C : ℝ) - 1 = (⌊√(C : ℝ) - 1⌋ : ℤ)
    · simp only
      rw [if_pos h, if_pos h]
      cases hM : shRotationMatrix (pyInt (√(C : ℝ) - 1)) yaw pitch roll .real with
      | error e => exact .inl ⟨e, rfl, rfl⟩
      | ok M => exact matmul_rows M.transpose S C n x τ
    · simp only
      rw [if_neg h, if_neg h]
      exact .inl ⟨_, rfl, rfl⟩

theorem scale_cols (c : ℕ → ℝ) : InstantCols fun F => scalePerOrder c F false := by
  intro R S n x τ
  unfold scalePerOrder
  simp only [Bool.false_eq_true, if_false]
  obtain ⟨l, hl⟩ : ∃ l, l = repeatPerOrder ((List.range (shOrder R + 1).toNat).map c) := ⟨_, rfl⟩
  simp only [← hl]
  by_cases h : l.length = R ∨ l.length = 1
  · simp only [if_pos h]
    exact .inr ⟨R, _, rfl, rfl⟩
  · simp only [if_neg h]
    exact .inl ⟨_, rfl, rfl⟩

theorem scale_rows (c : ℕ → ℝ) : InstantRows fun F => scalePerOrder c F true := by
  intro S C n x τ
  unfold scalePerOrder
  simp only [if_true]
  obtain ⟨l, hl⟩ : ∃ l, l = repeatPerOrder ((List.range (shOrder C + 1).toNat).map c) := ⟨_, rfl⟩
  simp only [← hl]
  by_cases h : l.length = C ∨ l.length = 1
  · simp only [if_pos h]
    exact .inr ⟨C, _, rfl, rfl⟩
  · simp only [if_neg h]
    exact .inl ⟨_, rfl, rfl⟩

/-- **C142** The conversions between SH signals and B-format and between N3D and SN3D, with channels in rows and, for the latter, in columns. -/
theorem C142_formats (w : Option ℝ) :
    (InstantCols fun F => shToB F w) ∧ (InstantCols fun B => bToSh B w) ∧ (InstantCols fun F => n3dToSn3d F false) ∧ (InstantCols fun F => sn3dToN3d F false) ∧
      (InstantRows fun F => n3dToSn3d F true) ∧ InstantRows fun F => sn3dToN3d F true := by
  refine ⟨matmul_cols _, ?_, scale_cols _, scale_cols _, scale_rows _, scale_rows _⟩
  intro R S n x τ
  unfold bToSh
  by_cases h : (bMat w).det = 0
  · simp only [if_pos h]
    exact .inl ⟨_, rfl, rfl⟩
  · simp only [if_neg h]
    exact matmul_cols _ R S n x τ

/-! #### binauralize -/

theorem earPart_late {S D : ℕ} (a : Fin S → ℝ) (r : List ℝ) (n : ℕ) :
    earPart (Fin.append (fun _ : Fin D => 0) a) r n = if D ≤ n then earPart a r (n - D) else 0 := by
  unfold earPart
  rw [Fin.sum_univ_add]
  simp only [Fin.append_left, Fin.append_right, zero_mul, ite_self, Finset.sum_const_zero, zero_add, Fin.val_natAdd]
  by_cases h : D ≤ n
  · rw [if_pos h]
    refine Finset.sum_congr rfl fun s _ => ?_
    by_cases hs : (s : ℕ) ≤ n - D
    · rw [if_pos hs, if_pos (by omega), show n - (D + (s : ℕ)) = n - D - s by omega]
    · rw [if_neg hs, if_neg (by omega)]
  · rw [if_neg h]
    exact Finset.sum_eq_zero fun s _ => by rw [if_neg (by omega)]

theorem earPart_padded {S D : ℕ} (a : Fin S → ℝ) (r : List ℝ) (n : ℕ) : earPart (Fin.append a (fun _ : Fin D => 0)) r n = earPart a r n := by
  unfold earPart
  rw [Fin.sum_univ_add]
  simp only [Fin.append_left, Fin.append_right, zero_mul, ite_self, Finset.sum_const_zero, add_zero, Fin.val_castAdd]

theorem earPart_over {S T : ℕ} (a : Fin S → ℝ) (r : List ℝ) (hr : r.length ≤ T) (n : ℕ) (hn : S + T - 1 ≤ n) : earPart a r n = 0 := by
  unfold earPart
  refine Finset.sum_eq_zero fun s _ => ?_
  split_ifs with h
  · rw [getD_out (by omega), mul_zero]
  · rfl

/-- **C142** `binauralize` is time invariant: `D` zeros before the signals delay the result by `D` samples, `D` zeros after them append `D` zeros. -/
theorem C142_delay {L S : ℕ} (h : Hull L) (orientation : ℝ × ℝ) (hr : HRIRs) (hc : hr.Consistent) (hne : hr.azi ≠ []) (hT : 1 ≤ hr.numSamples) (hS : 1 ≤ S) (D : ℕ)
    (x : Matrix (Fin L) (Fin S) ℝ) :
    ∃ l r : List ℝ, binauralize h x hr.fs orientation hr = .ok (l, r) ∧ l.length = S + hr.numSamples - 1 ∧ r.length = S + hr.numSamples - 1 ∧
      binauralize h (blocks (0 : Matrix (Fin L) (Fin D) ℝ) x) hr.fs orientation hr = .ok (List.replicate D 0 ++ l, List.replicate D 0 ++ r) ∧
      binauralize h (blocks x (0 : Matrix (Fin L) (Fin D) ℝ)) hr.fs orientation hr = .ok (l ++ List.replicate D 0, r ++ List.replicate D 0) := by
  classical
  obtain ⟨idx, -, hu⟩ := binauralize_lengths h orientation hr hc hne hT
  obtain ⟨l, r, x1, x2, x3, x4⟩ := hu S hS x
  obtain ⟨ld, rd, d1, d2, d3, d4⟩ := hu _ (by omega) (blocks (0 : Matrix (Fin L) (Fin D) ℝ) x)
  obtain ⟨lp, rp, p1, p2, p3, p4⟩ := hu _ (by omega) (blocks x (0 : Matrix (Fin L) (Fin D) ℝ))
  have hrow : ∀ k, (hr.left.rows.getD (idx k) []).length ≤ hr.numSamples ∧ (hr.right.rows.getD (idx k) []).length ≤ hr.numSamples := by
    obtain ⟨c1, c2, c3, c4, c5, c6, c7, c8⟩ := hc
    have : ∀ (rows : List (List ℝ)) (T : ℕ), (∀ r ∈ rows, r.length = T) → ∀ i, (rows.getD i []).length ≤ T := fun rows T hq i => by
      rw [List.getD_eq_getElem?_getD]
      cases hi : rows[i]? with
      | none => simp
      | some r => exact (hq r (List.mem_of_getElem? hi)).le
    exact fun k => ⟨this _ _ (fun r hr => by rw [c5 r hr, c7]) _, this _ _ (fun r hr => by rw [c6 r hr, c8]) _⟩
  obtain ⟨g, hg⟩ : ∃ g : Fin L → ℝ, g = fun k => norm3 (h.points k - h.listener) ^ h.a := ⟨_, rfl⟩
  have hgk : ∀ k, norm3 (h.points k - h.listener) ^ h.a = g k := fun k => by rw [hg]
  simp only [hgk] at x4 d4 p4
  have late : ∀ k, (fun s => blocks (0 : Matrix (Fin L) (Fin D) ℝ) x k s / g k) = Fin.append (fun _ : Fin D => 0) fun s => x k s / g k := fun k => by
    funext s
    refine Fin.addCases (fun i => ?_) (fun i => ?_) s
    · unfold blocks; rw [Fin.append_left, Fin.append_left]; exact zero_div _
    · unfold blocks; rw [Fin.append_right, Fin.append_right]
  have padded : ∀ k, (fun s => blocks x (0 : Matrix (Fin L) (Fin D) ℝ) k s / g k) = Fin.append (fun s => x k s / g k) (fun _ : Fin D => 0) := fun k => by
    funext s
    refine Fin.addCases (fun i => ?_) (fun i => ?_) s
    · unfold blocks; rw [Fin.append_left, Fin.append_left]
    · unfold blocks; rw [Fin.append_right, Fin.append_right]; exact zero_div _
  have gate1 : ∀ k, (∃ s, |blocks (0 : Matrix (Fin L) (Fin D) ℝ) x k s / g k| > 10e-6) ↔ ∃ s, |x k s / g k| > 10e-6 := fun k => by
    have e : ∀ s, blocks (0 : Matrix (Fin L) (Fin D) ℝ) x k s / g k = Fin.append (fun _ : Fin D => 0) (fun s => x k s / g k) s := congrFun (late k)
    simp only [e]
    constructor
    · rintro ⟨s, hs⟩
      revert hs
      refine Fin.addCases (fun i => ?_) (fun i => ?_) s
      · rw [Fin.append_left]; intro q; rw [abs_zero] at q; norm_num at q
      · rw [Fin.append_right]; exact fun q => ⟨i, q⟩
    · rintro ⟨s, hs⟩; exact ⟨Fin.natAdd D s, by rw [Fin.append_right]; exact hs⟩
  have gate2 : ∀ k, (∃ s, |blocks x (0 : Matrix (Fin L) (Fin D) ℝ) k s / g k| > 10e-6) ↔ ∃ s, |x k s / g k| > 10e-6 := fun k => by
    have e : ∀ s, blocks x (0 : Matrix (Fin L) (Fin D) ℝ) k s / g k = Fin.append (fun s => x k s / g k) (fun _ : Fin D => 0) s := congrFun (padded k)
    simp only [e]
    constructor
    · rintro ⟨s, hs⟩
      revert hs
      refine Fin.addCases (fun i => ?_) (fun i => ?_) s
      · rw [Fin.append_left]; exact fun q => ⟨i, q⟩
      · rw [Fin.append_right]; intro q; rw [abs_zero] at q; norm_num at q
    · rintro ⟨s, hs⟩; exact ⟨Fin.castAdd D s, by rw [Fin.append_left]; exact hs⟩
  have key : ∀ (rows : Fin L → List ℝ) (_ : ∀ k, (rows k).length ≤ hr.numSamples) (u v w : List ℝ) (_ : u.length = S + hr.numSamples - 1)
      (_ : v.length = D + S + hr.numSamples - 1) (_ : w.length = S + D + hr.numSamples - 1)
      (_ : ∀ n < S + hr.numSamples - 1, u.getD n 0 = ∑ k, if ∃ s, |x k s / g k| > 10e-6 then earPart (fun s => x k s / g k) (rows k) n else 0)
      (_ : ∀ n < D + S + hr.numSamples - 1, v.getD n 0 = ∑ k, if ∃ s, |blocks (0 : Matrix (Fin L) (Fin D) ℝ) x k s / g k| > 10e-6 then
        earPart (fun s => blocks (0 : Matrix (Fin L) (Fin D) ℝ) x k s / g k) (rows k) n else 0)
      (_ : ∀ n < S + D + hr.numSamples - 1, w.getD n 0 = ∑ k, if ∃ s, |blocks x (0 : Matrix (Fin L) (Fin D) ℝ) k s / g k| > 10e-6 then
        earPart (fun s => blocks x (0 : Matrix (Fin L) (Fin D) ℝ) k s / g k) (rows k) n else 0),
      v = List.replicate D 0 ++ u ∧ w = u ++ List.replicate D 0 := by
    intro rows hrows u v w hu hv hw eu ev ew
    constructor
    · refine List.ext_getElem (by simp [hu, hv]; omega) fun n h1 h2 => ?_
      have := ev n (hv ▸ h1)
      simp only [gate1, late, earPart_late] at this
      rw [← List.getD_eq_getElem _ 0 h1, this]
      by_cases hn : n < D
      · rw [List.getElem_append_left (by simpa using hn), List.getElem_replicate]
        simp only [if_neg (not_le.2 hn), ite_self, Finset.sum_const_zero]
      · rw [List.getElem_append_right (by simpa using hn)]
        simp only [if_pos (not_lt.1 hn), List.length_replicate]
        rw [← List.getD_eq_getElem _ 0, eu _ (by omega)]
    · refine List.ext_getElem (by simp [hu, hw]; omega) fun n h1 h2 => ?_
      have := ew n (hw ▸ h1)
      simp only [gate2, padded, earPart_padded] at this
      rw [← List.getD_eq_getElem _ 0 h1, this]
      by_cases hn : n < u.length
      · rw [List.getElem_append_left hn, ← List.getD_eq_getElem _ 0, eu _ (by omega)]
      · rw [List.getElem_append_right (by omega), List.getElem_replicate]
        refine Finset.sum_eq_zero fun k _ => ?_
        rw [earPart_over _ _ (hrows k) n (by omega), ite_self]
  obtain ⟨k1, k2⟩ := key _ (fun k => (hrow k).1) l ld lp x2 d2 p2 (fun n hn => (x4 n hn).1) (fun n hn => (d4 n hn).1) (fun n hn => (p4 n hn).1)
  obtain ⟨k3, k4⟩ := key _ (fun k => (hrow k).2) r rd rp x3 d3 p3 (fun n hn => (x4 n hn).2) (fun n hn => (d4 n hn).2) (fun n hn => (p4 n hn).2)
  exact ⟨l, r, x1, x2, x3, by rw [d1, k1, k3], by rw [p1, k2, k4]⟩

theorem blocks_sum {K m n : ℕ} (x : Matrix (Fin K) (Fin m) ℝ) (y : Matrix (Fin K) (Fin n) ℝ) : (1 : ℝ) • blocks x 0 + (1 : ℝ) • blocks 0 y = blocks x y := by
  rw [one_smul, one_smul]
  ext k s
  show blocks x 0 k s + blocks 0 y k s = _
  refine Fin.addCases (fun i => ?_) (fun i => ?_) s
  · unfold blocks; rw [Fin.append_left, Fin.append_left, Fin.append_left]; exact add_zero _
  · unfold blocks; rw [Fin.append_right, Fin.append_right, Fin.append_right]; exact zero_add _

/-- **C142** Overlap and add: the result for two consecutive blocks is the sum of the result for the first and the delayed result for the second, up to `10e-6` per
loudspeaker and signal times the absolute sum of a response. Missing: the sum is not exact, see `C142_overlap_fails`. -/
theorem C142_overlap_partial {L m n : ℕ} (h : Hull L) (orientation : ℝ × ℝ) (hr : HRIRs) (hc : hr.Consistent) (hne : hr.azi ≠ []) (hT : 1 ≤ hr.numSamples)
    (hm : 1 ≤ m) (hn : 1 ≤ n) (B : ℝ) (h0 : 0 ≤ B) (hB : ∀ r ∈ hr.left.rows ++ hr.right.rows, (r.map fun v => |v|).sum ≤ B) (x : Matrix (Fin L) (Fin m) ℝ)
    (y : Matrix (Fin L) (Fin n) ℝ) :
    ∃ lx rx ly ry lz rz : List ℝ, binauralize h x hr.fs orientation hr = .ok (lx, rx) ∧ binauralize h y hr.fs orientation hr = .ok (ly, ry) ∧
      binauralize h (blocks x y) hr.fs orientation hr = .ok (lz, rz) ∧ ∀ i < m + n + hr.numSamples - 1,
        |lz.getD i 0 - (lx.getD i 0 + if m ≤ i then ly.getD (i - m) 0 else 0)| ≤ 3 * (10e-6 * B) * L ∧
        |rz.getD i 0 - (rx.getD i 0 + if m ≤ i then ry.getD (i - m) 0 else 0)| ≤ 3 * (10e-6 * B) * L := by
  obtain ⟨lx, rx, x1, -, -, -, x2⟩ := C142_delay h orientation hr hc hne hT hm n x
  obtain ⟨ly, ry, y1, -, -, y2, -⟩ := C142_delay h orientation hr hc hne hT hn m y
  obtain ⟨a, b, c, d, lz, rz, z1, z2, z3, z4⟩ := C140_binauralize_partial h orientation hr hc hne hT (by omega) B h0 hB 1 1 (blocks x 0) (blocks 0 y)
  rw [x2] at z1
  rw [y2] at z2
  rw [blocks_sum] at z3
  obtain ⟨rfl, rfl⟩ := Prod.mk.inj (Except.ok.inj z1)
  obtain ⟨rfl, rfl⟩ := Prod.mk.inj (Except.ok.inj z2)
  refine ⟨lx, rx, ly, ry, lz, rz, x1, y1, z3, fun i hi => ?_⟩
  have e1 : ∀ u : List ℝ, (u ++ List.replicate n 0).getD i 0 = u.getD i 0 := fun u => by
    simp only [List.getD_eq_getElem?_getD, List.getElem?_append, List.getElem?_replicate]
    split_ifs <;> simp_all
  have e2 : ∀ u : List ℝ, (List.replicate m 0 ++ u).getD i 0 = if m ≤ i then u.getD (i - m) 0 else 0 := fun u => by
    simp only [List.getD_eq_getElem?_getD, List.getElem?_append, List.getElem?_replicate, List.length_replicate]
    split_ifs <;> first | rfl | omega
  have := z4 i hi
  rw [e1, e1, e2, e2, one_mul, one_mul, one_mul, one_mul, abs_one, show (1 : ℝ) + 1 + 1 = 3 by norm_num] at this
  exact this

/-- **C142** Overlap and add is exact if no loudspeaker is quiet without being silent in one of the blocks. -/
theorem C142_overlap_loud {L m n : ℕ} (h : Hull L) (orientation : ℝ × ℝ) (hr : HRIRs) (hc : hr.Consistent) (hne : hr.azi ≠ []) (hT : 1 ≤ hr.numSamples)
    (hm : 1 ≤ m) (hn : 1 ≤ n) (x : Matrix (Fin L) (Fin m) ℝ) (y : Matrix (Fin L) (Fin n) ℝ)
    (hx : ∀ k, (∀ s, x k s = 0) ∨ ∃ s, |x k s / norm3 (h.points k - h.listener) ^ h.a| > 10e-6)
    (hy : ∀ k, (∀ s, y k s = 0) ∨ ∃ s, |y k s / norm3 (h.points k - h.listener) ^ h.a| > 10e-6) :
    ∃ lx rx ly ry : List ℝ, binauralize h x hr.fs orientation hr = .ok (lx, rx) ∧ binauralize h y hr.fs orientation hr = .ok (ly, ry) ∧
      binauralize h (blocks x y) hr.fs orientation hr = .ok (List.zipWith (· + ·) (lx ++ List.replicate n 0) (List.replicate m 0 ++ ly),
        List.zipWith (· + ·) (rx ++ List.replicate n 0) (List.replicate m 0 ++ ry)) := by
  obtain ⟨lx, rx, x1, -, -, -, x2⟩ := C142_delay h orientation hr hc hne hT hm n x
  obtain ⟨ly, ry, y1, -, -, y2, -⟩ := C142_delay h orientation hr hc hne hT hn m y
  have bx : ∀ k, (∀ s, blocks x (0 : Matrix (Fin L) (Fin n) ℝ) k s = 0) ∨ ∃ s, |blocks x (0 : Matrix (Fin L) (Fin n) ℝ) k s / norm3 (h.points k - h.listener) ^ h.a| > 10e-6 := fun k => by
    rcases hx k with h1 | ⟨s, h1⟩
    · left
      intro s
      refine Fin.addCases (fun i => ?_) (fun i => ?_) s
      · unfold blocks; rw [Fin.append_left]; exact h1 i
      · unfold blocks; rw [Fin.append_right]; rfl
    · exact .inr ⟨Fin.castAdd n s, by unfold blocks; rw [Fin.append_left]; exact h1⟩
  have by' : ∀ k, (∀ s, blocks (0 : Matrix (Fin L) (Fin m) ℝ) y k s = 0) ∨ ∃ s, |blocks (0 : Matrix (Fin L) (Fin m) ℝ) y k s / norm3 (h.points k - h.listener) ^ h.a| > 10e-6 := fun k => by
    rcases hy k with h1 | ⟨s, h1⟩
    · left
      intro s
      refine Fin.addCases (fun i => ?_) (fun i => ?_) s
      · unfold blocks; rw [Fin.append_left]; rfl
      · unfold blocks; rw [Fin.append_right]; exact h1 i
    · exact .inr ⟨Fin.natAdd m s, by unfold blocks; rw [Fin.append_right]; exact h1⟩
  have bz : ∀ k, (∀ s, blocks x y k s = 0) ∨ ∃ s, |blocks x y k s / norm3 (h.points k - h.listener) ^ h.a| > 10e-6 := fun k => by
    rcases hx k with h1 | ⟨s, h1⟩
    · rcases hy k with h2 | ⟨s, h2⟩
      · left
        intro s
        refine Fin.addCases (fun i => ?_) (fun i => ?_) s
        · unfold blocks; rw [Fin.append_left]; exact h1 i
        · unfold blocks; rw [Fin.append_right]; exact h2 i
      · exact .inr ⟨Fin.natAdd m s, by unfold blocks; rw [Fin.append_right]; exact h2⟩
    · exact .inr ⟨Fin.castAdd n s, by unfold blocks; rw [Fin.append_left]; exact h1⟩
  obtain ⟨a, b, c, d, z1, z2, z3⟩ := C140_binauralize_loud h orientation hr hc hne hT (by omega) 1 1 (blocks x 0) (blocks 0 y) (by
    intro z hz
    rw [blocks_sum] at hz
    simp only [List.mem_cons, List.not_mem_nil, or_false] at hz
    rcases hz with rfl | rfl | rfl
    · exact bx
    · exact by'
    · exact bz)
  rw [x2] at z1
  rw [y2] at z2
  rw [blocks_sum] at z3
  obtain ⟨rfl, rfl⟩ := Prod.mk.inj (Except.ok.inj z1)
  obtain ⟨rfl, rfl⟩ := Prod.mk.inj (Except.ok.inj z2)
  refine ⟨lx, rx, ly, ry, x1, y1, ?_⟩
  rw [z3]
  simp only [one_mul]

/-- **C142** fails for `binauralize`: the second of two samples is quiet. Alone it is dropped, after a loud one it is heard, so the results for the two blocks do not add
up to the result for the whole signal. -/
theorem C142_overlap_fails : ∃ lx rx ly ry lz rz : List ℝ, binauralize pairHull !![1; 0] 48000 (0, 0) twoHrirs = .ok (lx, rx) ∧
    binauralize pairHull !![15e-6; 0] 48000 (0, 0) twoHrirs = .ok (ly, ry) ∧ binauralize pairHull (blocks !![1; 0] !![15e-6; 0]) 48000 (0, 0) twoHrirs = .ok (lz, rz) ∧
    lx.getD 1 0 + ly.getD 0 0 = 0 ∧ 3e-6 < lz.getD 1 0 := by
  classical
  obtain ⟨idx, hi, hu⟩ := binauralize_lengths pairHull (0, 0) twoHrirs twoHrirs_consistent twoHrirs_grid.2.1 (by simp [twoHrirs])
  obtain ⟨lx, rx, x1, -, -, x2⟩ := hu 1 le_rfl !![1; 0]
  obtain ⟨ly, ry, y1, -, -, y2⟩ := hu 1 le_rfl !![15e-6; 0]
  obtain ⟨lz, rz, z1, -, -, z2⟩ := hu 2 (by norm_num) (blocks !![1; 0] !![15e-6; 0])
  have ha : pairHull.a = 1 := rfl
  have hT : twoHrirs.numSamples = 2 := rfl
  have hrow : (twoHrirs.left.rows.getD (idx 0) []).getD 0 0 ≥ 0.5 ∧ (twoHrirs.left.rows.getD (idx 0) []).getD 1 0 = 0 := by
    obtain ⟨ga, -, hg, -⟩ := hi 0
    have : idx 0 < 2 := by
      have := (List.getElem?_eq_some_iff.1 hg).1
      simpa [twoHrirs] using this
    interval_cases idx 0 <;> norm_num [twoHrirs]
  have hz : ∀ d : ℝ, ¬ |(0 : ℝ) / d| > 10e-6 := fun d => by rw [zero_div, abs_zero]; norm_num
  have q1 : ∀ v : ℝ, ¬ ∃ s : Fin 1, |(!![v; 0] : Matrix (Fin 2) (Fin 1) ℝ) 1 s / norm3 (pairHull.points 1 - pairHull.listener) ^ pairHull.a| > 10e-6 := by
    rintro v ⟨s, hs⟩
    match s, hs with
    | 0, hs => exact hz _ hs
  refine ⟨lx, rx, ly, ry, lz, rz, x1, y1, z1, ?_, ?_⟩
  · have q2 : ¬ ∃ s : Fin 1, |(!![15e-6; 0] : Matrix (Fin 2) (Fin 1) ℝ) 0 s / norm3 (pairHull.points 0 - pairHull.listener) ^ pairHull.a| > 10e-6 := by
      rintro ⟨s, hs⟩
      match s, hs with
      | 0, hs =>
        rw [pair_norm, ha] at hs
        change |15e-6 / (2 : ℝ) ^ 1| > 10e-6 at hs
        rw [abs_of_pos (by norm_num)] at hs
        norm_num at hs
    rw [(x2 1 (by rw [hT]; norm_num)).1, (y2 0 (by rw [hT]; norm_num)).1, Fin.sum_univ_two, Fin.sum_univ_two, if_neg (q1 _), if_neg (q1 _), if_neg q2]
    split_ifs with q
    · rw [Fin.sum_univ_one]
      have : (1 : ℕ) - ((0 : Fin 1) : ℕ) = 1 := rfl
      rw [this, hrow.2]
      simp
    · simp
  · rw [(z2 1 (by rw [hT]; norm_num)).1, Fin.sum_univ_two]
    have e : ∀ k : Fin 2, blocks (!![1; 0] : Matrix (Fin 2) (Fin 1) ℝ) (!![15e-6; 0] : Matrix (Fin 2) (Fin 1) ℝ) k 0 = (!![1; 0] : Matrix (Fin 2) (Fin 1) ℝ) k 0 ∧
        blocks (!![1; 0] : Matrix (Fin 2) (Fin 1) ℝ) (!![15e-6; 0] : Matrix (Fin 2) (Fin 1) ℝ) k 1 = (!![15e-6; 0] : Matrix (Fin 2) (Fin 1) ℝ) k 0 := fun k =>
      ⟨Fin.append_left _ _ 0, Fin.append_right _ _ 0⟩
    have h0 : ∃ s : Fin 2, |blocks (!![1; 0] : Matrix (Fin 2) (Fin 1) ℝ) (!![15e-6; 0] : Matrix (Fin 2) (Fin 1) ℝ) 0 s / norm3 (pairHull.points 0 - pairHull.listener) ^ pairHull.a| > 10e-6 := by
      refine ⟨0, ?_⟩
      rw [pair_norm, ha, (e 0).1]
      change |1 / (2 : ℝ) ^ 1| > 10e-6
      rw [abs_of_pos (by norm_num)]; norm_num
    have h1 : ¬ ∃ s : Fin 2, |blocks (!![1; 0] : Matrix (Fin 2) (Fin 1) ℝ) (!![15e-6; 0] : Matrix (Fin 2) (Fin 1) ℝ) 1 s / norm3 (pairHull.points 1 - pairHull.listener) ^ pairHull.a| > 10e-6 := by
      rintro ⟨s, hs⟩
      match s, hs with
      | 0, hs => rw [(e 1).1] at hs; exact hz _ hs
      | 1, hs => rw [(e 1).2] at hs; exact hz _ hs
    rw [if_pos h0, if_neg h1, Fin.sum_univ_two, pair_norm, ha, (e 0).1, (e 0).2]
    change 3e-6 < (if 0 ≤ 1 then 1 / (2 : ℝ) ^ 1 * (twoHrirs.left.rows.getD (idx 0) []).getD 1 0 else 0)
      + (if 1 ≤ 1 then 15e-6 / (2 : ℝ) ^ 1 * (twoHrirs.left.rows.getD (idx 0) []).getD 0 0 else 0) + 0
    rw [if_pos (by norm_num), if_pos le_rfl, hrow.2]
    nlinarith [hrow.1]

/-! #### examples -/

/-- `C142_blocks` with `sad` on the octahedron: three samples and then five. -/
example (x : Matrix (Fin 4) (Fin 3) ℝ) (y : Matrix (Fin 4) (Fin 5) ℝ) : sad (fun M => M) (blocks x y) Oct.hull (some 1) =
    (do let a ← sad (fun M => M) x Oct.hull (some 1); let b ← sad (fun M => M) y Oct.hull (some 1); return blocks a b) :=
  C142_blocks (C142_decoders (fun M => M) (fun {_ _} A => A.transpose) (fun {_ _} _ => (0, 0)) Oct.hull (some 1)).1 x y

/-- A least squares routine of least norm for `C142_sht_lstsq`. -/
example (Q : ℕ) : ∃ lstsq : (S K : ℕ) → Matrix (Fin Q) (Fin K) ℝ → Matrix (Fin Q) (Fin S) ℝ → Matrix (Fin K) (Fin S) ℝ, ∀ S K A b, IsLstsq A b (lstsq S K A b) := by
  choose f hf using fun (S K : ℕ) (A : Matrix (Fin Q) (Fin K) ℝ) (b : Matrix (Fin Q) (Fin S) ℝ) => exists_lstsq A b
  exact ⟨f, hf⟩

/-- `C142_delay`, `C142_overlap_partial` and `C142_overlap_loud` with two loudspeakers and two HRIRs. -/
example (x : Matrix (Fin 2) (Fin 3) ℝ) : ∃ l r, binauralize pairHull x 48000 (0.1, 0) twoHrirs = .ok (l, r) ∧
    binauralize pairHull (blocks (0 : Matrix (Fin 2) (Fin 7) ℝ) x) 48000 (0.1, 0) twoHrirs = .ok (List.replicate 7 0 ++ l, List.replicate 7 0 ++ r) := by
  obtain ⟨l, r, h1, -, -, h2, -⟩ := C142_delay pairHull (0.1, 0) twoHrirs twoHrirs_consistent twoHrirs_grid.2.1 (by simp [twoHrirs]) (by norm_num) 7 x
  exact ⟨l, r, h1, h2⟩

example : ∃ z, binauralize pairHull (blocks !![1; 0] !![2; 0]) 48000 (0.1, 0) twoHrirs = .ok z := by
  have loud : ∀ v : ℝ, v ≥ 1 → ∀ k : Fin 2, (∀ s, (!![v; 0] : Matrix (Fin 2) (Fin 1) ℝ) k s = 0) ∨
      ∃ s, |(!![v; 0] : Matrix (Fin 2) (Fin 1) ℝ) k s / norm3 (pairHull.points k - pairHull.listener) ^ pairHull.a| > 10e-6 := by
    intro v hv k
    match k with
    | 0 =>
      refine .inr ⟨0, ?_⟩
      rw [pair_norm]
      change |v / (2 : ℝ) ^ 1| > 10e-6
      rw [abs_of_pos (by positivity)]
      norm_num; linarith
    | 1 => exact .inl fun s => by match s with | 0 => rfl
  obtain ⟨_, _, _, _, -, -, h⟩ := C142_overlap_loud pairHull (0.1, 0) twoHrirs twoHrirs_consistent twoHrirs_grid.2.1 (by simp [twoHrirs]) le_rfl le_rfl !![1; 0] !![2; 0]
    (loud 1 le_rfl) (loud 2 (by norm_num))
  exact ⟨_, h⟩

end Verif.Props
