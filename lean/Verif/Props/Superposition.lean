import Verif.Props.Binauralize
import Verif.Props.ShRotation
import Verif.Props.SphDesigns
import Verif.Props.AmbiDecoders
import Verif.Model.SphCore
import Mathlib.Tactic

/-!
C140: superposition. Encoding, transforming, rotating, converting and decoding a weighted sum of signals gives the weighted sum of the results;
two groups of sources rendered together give the sum of the two renderings. `binauralize` does so only up to its gate at `10e-6`.
-/

namespace Verif.Props
open Real Verif.Decoder Verif.Sph Verif.Sig Verif.Utils

/-- `f` of a weighted sum is the weighted sum of `f`, and `f` raises the same exception for all inputs or for none. -/
def Superposes {V W : Type} [Add V] [SMul ℝ V] [Add W] [SMul ℝ W] (f : V → Py W) : Prop :=
  ∀ (α β : ℝ) (x y : V), f (α • x + β • y) = (do let a ← f x; let b ← f y; return α • a + β • b)

/-- The same for a function whose input and output have shapes known at run time only. -/
def SuperposesNp (f : NpMat → Py NpMat) : Prop :=
  ∀ (R C : ℕ) (α β : ℝ) (x y : Matrix (Fin R) (Fin C) ℝ),
    (∃ e, f ⟨R, C, x⟩ = .error e ∧ f ⟨R, C, y⟩ = .error e ∧ f ⟨R, C, α • x + β • y⟩ = .error e) ∨
    ∃ (R' C' : ℕ) (a b : Matrix (Fin R') (Fin C') ℝ), f ⟨R, C, x⟩ = .ok ⟨R', C', a⟩ ∧ f ⟨R, C, y⟩ = .ok ⟨R', C', b⟩ ∧
      f ⟨R, C, α • x + β • y⟩ = .ok ⟨R', C', α • a + β • b⟩

theorem superposes_of {V W : Type} [Add V] [SMul ℝ V] [Add W] [SMul ℝ W] {f : V → Py W}
    (h : (∃ e, ∀ x, f x = .error e) ∨ ∃ T : V → W, (∀ x, f x = .ok (T x)) ∧ ∀ (α β : ℝ) x y, T (α • x + β • y) = α • T x + β • T y) : Superposes f := by
  intro α β x y
  rcases h with ⟨e, he⟩ | ⟨T, hT, hl⟩
  · rw [he, he, he]; rfl
  · rw [hT, hT, hT, hl]; rfl

theorem mul_comb {m n p : Type} [Fintype n] (A : Matrix m n ℝ) (α β : ℝ) (x y : Matrix n p ℝ) : A * (α • x + β • y) = α • (A * x) + β • (A * y) := by
  rw [Matrix.mul_add, Matrix.mul_smul, Matrix.mul_smul]

theorem comb_mul {m n p : Type} [Fintype n] (A : Matrix n p ℝ) (α β : ℝ) (x y : Matrix m n ℝ) : (α • x + β • y) * A = α • (x * A) + β • (y * A) := by
  rw [Matrix.add_mul, Matrix.smul_mul, Matrix.smul_mul]

/-! #### encoding and transforms -/

/-- **C140** `src_to_sh`: the sound field of a weighted sum of the source signals is the weighted sum of the sound fields. -/
theorem C140_src_to_sh {n S : ℕ} (azi zen : Fin n → ℝ) (N : ℕ) (α β : ℝ) (x y : Matrix (Fin n) (Fin S) ℝ) :
    srcToSh (α • x + β • y) azi zen N = α • srcToSh x azi zen N + β • srcToSh y azi zen N := mul_comb _ _ _ _ _

/-- **C140** `src_to_sh`: the sound field of two groups of sources encoded in one call is the sum of the sound fields of the groups. -/
theorem C140_groups {n n' S : ℕ} (azi zen : Fin n → ℝ) (azi' zen' : Fin n' → ℝ) (N : ℕ) (x : Matrix (Fin n) (Fin S) ℝ) (y : Matrix (Fin n') (Fin S) ℝ) :
    srcToSh (fun i => Fin.append x y i) (Fin.append azi azi') (Fin.append zen zen') N = srcToSh x azi zen N + srcToSh y azi' zen' N := by
  ext k s
  change ∑ i : Fin (n + n'), shMat N (Fin.append azi azi') (Fin.append zen zen') i k * Fin.append x y i s = ∑ i, shMat N azi zen i k * x i s + ∑ i, shMat N azi' zen' i k * y i s
  rw [Fin.sum_univ_add]
  refine congrArg₂ _ (Finset.sum_congr rfl fun i _ => ?_) (Finset.sum_congr rfl fun i _ => ?_)
  · rw [show Fin.append x y (Fin.castAdd n' i) = x i from Fin.append_left _ _ _]
    simp only [shMat, Fin.append_left]
  · rw [show Fin.append x y (Fin.natAdd n i) = y i from Fin.append_right _ _ _]
    simp only [shMat, Fin.append_right]

/-- **C140** `sht` with or without weights. -/
theorem C140_sht {Q K S : ℕ} (Y : Matrix (Fin Q) (Fin K) ℝ) (w : Option (Fin Q → ℝ)) (α β : ℝ) (x y : Matrix (Fin Q) (Fin S) ℝ) :
    sht Y w (α • x + β • y) = α • sht Y w x + β • sht Y w y := by
  cases w with
  | none => exact mul_comb _ _ _ _ _
  | some w => show _ * (_ * _) = _ ; rw [mul_comb, mul_comb]; rfl

theorem inverse_superposes {K S Q : ℕ} (azi zen : Fin Q → ℝ) (N : ℕ) : Superposes fun F : Matrix (Fin K) (Fin S) ℝ =>
    (if h : (N + 1) ^ 2 ≤ K then .ok (shMat N azi zen * F.submatrix (Fin.castLE h) id) else .error .valueError : Py (Matrix (Fin Q) (Fin S) ℝ)) := by
  refine superposes_of ?_
  by_cases h : (N + 1) ^ 2 ≤ K
  · refine .inr ⟨fun F => shMat N azi zen * F.submatrix (Fin.castLE h) id, fun x => by rw [dif_pos h], fun α β x y => ?_⟩
    beta_reduce
    rw [← mul_comb]; rfl
  · exact .inl ⟨.valueError, fun x => by rw [dif_neg h]⟩

/-- **C140** `inverse_sht` at any directions and order. -/
theorem C140_inverse_sht {K S Q : ℕ} (azi zen : Fin Q → ℝ) (No : Option ℕ) :
    Superposes fun F : Matrix (Fin K) (Fin S) ℝ => inverseSht F azi zen No := by
  unfold inverseSht
  by_cases h0 : No = none ∧ K = 0
  · simp only [if_pos h0]
    exact superposes_of (.inr ⟨fun _ => 0, fun x => rfl, fun α β x y => by simp⟩)
  · simp only [if_neg h0]
    cases No with
    | none => exact inverse_superposes azi zen _
    | some N => exact inverse_superposes azi zen N

/-- A quadratic polynomial in `t` that is nowhere negative and vanishes at zero has no linear term. -/
theorem lin_term_zero {p q : ℝ} (h : ∀ t : ℝ, 0 ≤ t * p + t ^ 2 * q) : p = 0 := by
  by_contra hp
  have hq : 0 < |q| + 1 := by positivity
  have h1 := h (-p / (|q| + 1))
  have h2 : -p / (|q| + 1) * p + (-p / (|q| + 1)) ^ 2 * q = p ^ 2 / (|q| + 1) ^ 2 * (q - (|q| + 1)) := by field_simp; ring
  rw [h2] at h1
  have h3 : 0 < p ^ 2 / (|q| + 1) ^ 2 := by positivity
  nlinarith [le_abs_self q]

/-- The residual of a least squares solution is orthogonal to the range, and the solution of least norm to the kernel. -/
theorem lstsq_orthogonal {Q K S : ℕ} {A : Matrix (Fin Q) (Fin K) ℝ} {b : Matrix (Fin Q) (Fin S) ℝ} {x : Matrix (Fin K) (Fin S) ℝ} (h : IsLstsq A b x) (s : Fin S) :
    (∀ y, ∑ q, (A.mulVec y) q * ((A.mulVec fun k => x k s) q - b q s) = 0) ∧ ∀ y, A.mulVec y = 0 → ∑ k, y k * x k s = 0 := by
  constructor
  · intro y
    suffices hs : 2 * ∑ q, (A.mulVec y) q * ((A.mulVec fun k => x k s) q - b q s) = 0 by linarith
    refine lin_term_zero (q := ∑ q, (A.mulVec y) q ^ 2) fun t => ?_
    have := h.min s ((fun k => x k s) + t • y)
    rw [Matrix.mulVec_add, Matrix.mulVec_smul] at this
    have e : ∑ q, (((A.mulVec fun k => x k s) + t • A.mulVec y) q - b q s) ^ 2 = ∑ q, ((A.mulVec fun k => x k s) q - b q s) ^ 2
        + (t * (2 * ∑ q, (A.mulVec y) q * ((A.mulVec fun k => x k s) q - b q s)) + t ^ 2 * ∑ q, (A.mulVec y) q ^ 2) := by
      simp only [Finset.mul_sum, ← Finset.sum_add_distrib]
      refine Finset.sum_congr rfl fun q _ => ?_
      simp only [Pi.add_apply, Pi.smul_apply, smul_eq_mul]
      ring
    linarith
  · intro y hy
    suffices hs : 2 * ∑ k, y k * x k s = 0 by linarith
    refine lin_term_zero (q := ∑ k, y k ^ 2) fun t => ?_
    have := h.least s ((fun k => x k s) + t • y) (by rw [Matrix.mulVec_add, Matrix.mulVec_smul, hy, smul_zero, add_zero])
    have e : ∑ k, ((fun k => x k s) + t • y) k ^ 2 = ∑ k, x k s ^ 2 + (t * (2 * ∑ k, y k * x k s) + t ^ 2 * ∑ k, y k ^ 2) := by
      simp only [Finset.mul_sum, ← Finset.sum_add_distrib]
      refine Finset.sum_congr rfl fun q _ => ?_
      simp only [Pi.add_apply, Pi.smul_apply, smul_eq_mul]
      ring
    linarith

/-- **C140** `sht_lstsq`: least squares of least norm superposes, also when the directions do not determine the coefficients. -/
theorem C140_sht_lstsq {Q S : ℕ} (lstsq : (K : ℕ) → Matrix (Fin Q) (Fin K) ℝ → Matrix (Fin Q) (Fin S) ℝ → Matrix (Fin K) (Fin S) ℝ)
    (hl : ∀ K A b, IsLstsq A b (lstsq K A b)) (N : ℕ) (azi zen : Fin Q → ℝ) (α β : ℝ) (f g : Matrix (Fin Q) (Fin S) ℝ) :
    shtLstsq lstsq (α • f + β • g) N azi zen = α • shtLstsq lstsq f N azi zen + β • shtLstsq lstsq g N azi zen := by
  unfold shtLstsq
  obtain ⟨A, hA⟩ : ∃ A, A = shMat N azi zen := ⟨_, rfl⟩
  rw [← hA]
  have hx := hl _ A f
  have hy := hl _ A g
  have hz := hl _ A (α • f + β • g)
  obtain ⟨x, ex⟩ : ∃ x, x = lstsq _ A f := ⟨_, rfl⟩
  obtain ⟨y, ey⟩ : ∃ x, x = lstsq _ A g := ⟨_, rfl⟩
  obtain ⟨z, ez⟩ : ∃ x, x = lstsq _ A (α • f + β • g) := ⟨_, rfl⟩
  rw [← ex] at hx ⊢
  rw [← ey] at hy ⊢
  rw [← ez] at hz ⊢
  ext k s
  obtain ⟨x1, x2⟩ := lstsq_orthogonal hx s
  obtain ⟨y1, y2⟩ := lstsq_orthogonal hy s
  obtain ⟨z1, z2⟩ := lstsq_orthogonal hz s
  obtain ⟨d, hd⟩ : ∃ d : Fin ((N + 1) ^ 2) → ℝ, d = (fun k => z k s) - (α • (fun k => x k s) + β • fun k => y k s) := ⟨_, rfl⟩
  have hAd : A.mulVec d = A.mulVec (fun k => z k s) - (α • A.mulVec (fun k => x k s) + β • A.mulVec fun k => y k s) := by
    rw [hd, Matrix.mulVec_sub, Matrix.mulVec_add, Matrix.mulVec_smul, Matrix.mulVec_smul]
  have h1 : ∑ q, (A.mulVec d) q ^ 2 = 0 := by
    have : ∑ q, (A.mulVec d) q ^ 2 = ∑ q, (A.mulVec d) q * ((A.mulVec fun k => z k s) q - (α • f + β • g) q s)
        - (α * ∑ q, (A.mulVec d) q * ((A.mulVec fun k => x k s) q - f q s) + β * ∑ q, (A.mulVec d) q * ((A.mulVec fun k => y k s) q - g q s)) := by
      simp only [Finset.mul_sum, ← Finset.sum_add_distrib, ← Finset.sum_sub_distrib]
      refine Finset.sum_congr rfl fun q _ => ?_
      have := congrFun hAd q
      simp only [Pi.add_apply, Pi.smul_apply, smul_eq_mul, Pi.sub_apply] at this
      simp only [Matrix.add_apply, Matrix.smul_apply, smul_eq_mul]
      rw [pow_two]
      nth_rw 2 [this]
      ring
    rw [this, x1, y1, z1]; simp
  have h2 : A.mulVec d = 0 := by
    funext q
    have := (Finset.sum_eq_zero_iff_of_nonneg fun q _ => sq_nonneg ((A.mulVec d) q)).1 h1 q (Finset.mem_univ _)
    exact pow_eq_zero_iff (two_ne_zero) |>.1 this
  have h3 : ∑ k, d k ^ 2 = 0 := by
    have : ∑ k, d k ^ 2 = ∑ k, d k * z k s - (α * ∑ k, d k * x k s + β * ∑ k, d k * y k s) := by
      simp only [Finset.mul_sum, ← Finset.sum_add_distrib, ← Finset.sum_sub_distrib]
      refine Finset.sum_congr rfl fun q _ => ?_
      have := congrFun hd q
      simp only [Pi.add_apply, Pi.smul_apply, smul_eq_mul, Pi.sub_apply] at this
      rw [pow_two]
      nth_rw 2 [this]
      ring
    rw [this, x2 d h2, y2 d h2, z2 d h2]; simp
  have := (Finset.sum_eq_zero_iff_of_nonneg fun q _ => sq_nonneg (d q)).1 h3 k (Finset.mem_univ _)
  have := pow_eq_zero_iff (two_ne_zero) |>.1 this
  rw [hd] at this
  simp only [Pi.add_apply, Pi.smul_apply, smul_eq_mul, Pi.sub_apply] at this
  simp only [Matrix.add_apply, Matrix.smul_apply, smul_eq_mul]
  linarith

/-! #### rotation and format conversions -/

theorem matmul_left_np (A : NpMat) : SuperposesNp fun F => A.matmul F := by
  intro R C α β x y
  unfold NpMat.matmul
  by_cases h : A.cols = R
  · refine .inr ⟨A.rows, C, _, _, dif_pos h, dif_pos h, ?_⟩
    beta_reduce
    rw [dif_pos h]
    congr 2
    funext i j
    change ∑ k, A.val i k * (α • x + β • y) (Fin.cast h k) j = α * (∑ k, A.val i k * x (Fin.cast h k) j) + β * ∑ k, A.val i k * y (Fin.cast h k) j
    simp only [Finset.mul_sum, ← Finset.sum_add_distrib]
    refine Finset.sum_congr rfl fun k _ => ?_
    simp only [Matrix.add_apply, Matrix.smul_apply, smul_eq_mul]
    ring
  · exact .inl ⟨.valueError, dif_neg h, dif_neg h, dif_neg h⟩

theorem matmul_right_np (A : NpMat) : SuperposesNp fun F => F.matmul A := by
  intro R C α β x y
  unfold NpMat.matmul
  by_cases h : C = A.rows
  · refine .inr ⟨R, A.cols, _, _, dif_pos h, dif_pos h, ?_⟩
    beta_reduce
    rw [dif_pos h]
    congr 2
    funext i j
    change ∑ k, (α • x + β • y) i k * A.val (Fin.cast h k) j = α * (∑ k, x i k * A.val (Fin.cast h k) j) + β * ∑ k, y i k * A.val (Fin.cast h k) j
    simp only [Finset.mul_sum, ← Finset.sum_add_distrib]
    refine Finset.sum_congr rfl fun k _ => ?_
    simp only [Matrix.add_apply, Matrix.smul_apply, smul_eq_mul]
    ring
  · exact .inl ⟨.valueError, dif_neg h, dif_neg h, dif_neg h⟩

/-- **C140** `rotate_sh` by any angles: an input of any shape is either rejected like all others of that shape, or superposes. -/
theorem C140_rotate (yaw pitch roll : ℝ) (ty : ShType) : SuperposesNp fun F => rotateSh F yaw pitch roll ty := by
  intro R C α β x y
  unfold rotateSh
  cases ty with
  | complex => exact .inl ⟨_, rfl, rfl, rfl⟩
  | other => exact .inl ⟨_, rfl, rfl, rfl⟩
  | real =>
    by_cases h : √(C : ℝ) - 1 = (⌊√(C : ℝ) - 1⌋ : ℤ)
    · simp only
      rw [if_pos h, if_pos h, if_pos h]
      cases hM : shRotationMatrix (pyInt (√(C : ℝ) - 1)) yaw pitch roll .real with
      | error e => exact .inl ⟨e, rfl, rfl, rfl⟩
      | ok M => exact matmul_right_np M.transpose R C α β x y
    · simp only
      rw [if_neg h, if_neg h, if_neg h]
      exact .inl ⟨_, rfl, rfl, rfl⟩

theorem scale_np (c : ℕ → ℝ) (ax : Bool) : SuperposesNp fun F => scalePerOrder c F ax := by
  intro R C α β x y
  unfold scalePerOrder
  simp only
  obtain ⟨K, hK⟩ : ∃ K, K = if ax = true then C else R := ⟨_, rfl⟩
  simp only [← hK]
  obtain ⟨l, hl⟩ : ∃ l, l = repeatPerOrder ((List.range (shOrder K + 1).toNat).map c) := ⟨_, rfl⟩
  simp only [← hl]
  by_cases h : l.length = K ∨ l.length = 1
  · simp only [if_pos h]
    refine .inr ⟨R, C, _, _, rfl, rfl, ?_⟩
    congr 2
    funext i j
    obtain ⟨v, hv⟩ : ∃ v, v = l.getD (if l.length = 1 then 0 else if ax = true then j.val else i.val) 0 := ⟨_, rfl⟩
    change l.getD (if l.length = 1 then 0 else if ax = true then j.val else i.val) 0 * (α * x i j + β * y i j)
      = α * (l.getD (if l.length = 1 then 0 else if ax = true then j.val else i.val) 0 * x i j)
        + β * (l.getD (if l.length = 1 then 0 else if ax = true then j.val else i.val) 0 * y i j)
    rw [← hv]
    ring
  · simp only [if_neg h]
    exact .inl ⟨_, rfl, rfl, rfl⟩

/-- **C140** The conversions between SH signals and B-format and between N3D and SN3D. -/
theorem C140_formats (w : Option ℝ) (ax : Bool) :
    (SuperposesNp fun F => shToB F w) ∧ (SuperposesNp fun B => bToSh B w) ∧ (SuperposesNp fun F => n3dToSn3d F ax) ∧ SuperposesNp fun F => sn3dToN3d F ax := by
  refine ⟨matmul_left_np _, ?_, scale_np _ ax, scale_np _ ax⟩
  intro R C α β x y
  unfold bToSh
  by_cases h : (bMat w).det = 0
  · simp only [if_pos h]
    exact .inl ⟨_, rfl, rfl, rfl⟩
  · simp only [if_neg h]
    exact matmul_left_np _ R C α β x y

/-! #### loudspeaker decoding -/

theorem truncated_superposes {K S R N : ℕ} (D : Matrix (Fin R) (Fin ((N + 1) ^ 2)) ℝ) :
    Superposes fun F : Matrix (Fin K) (Fin S) ℝ => applyTruncated D F := by
  refine superposes_of ?_
  unfold applyTruncated
  by_cases h1 : shOrder K ≥ (N : ℤ)
  · by_cases h2 : (N + 1) ^ 2 ≤ K
    · refine .inr ⟨fun F => D * F.submatrix (Fin.castLE h2) id, fun x => by rw [if_neg (not_not.2 h1), dif_pos h2], fun α β x y => ?_⟩
      beta_reduce
      rw [← mul_comb]; rfl
    · exact .inl ⟨_, fun x => by rw [if_neg (not_not.2 h1), dif_neg h2]⟩
  · exact .inl ⟨_, fun x => by rw [if_pos h1]⟩

theorem order_superposes {V W : Type} [Add V] [SMul ℝ V] [Add W] [SMul ℝ W] (o : Py ℕ) (f : ℕ → V → Py W) (h : ∀ N, Superposes (f N)) :
    Superposes fun x => o >>= fun N => f N x := by
  cases o with
  | error e => exact superposes_of (.inl ⟨e, fun x => rfl⟩)
  | ok N => exact h N

/-- **C140** `sad`, `mad` and `epad` superpose for every layout and order, whatever the linear algebra routines return for it. -/
theorem C140_decoders {L K S : ℕ} (lstsq : Mat3 → Mat3) (pinv : {m n : ℕ} → Matrix (Fin m) (Fin n) ℝ → Matrix (Fin n) (Fin m) ℝ)
    (svd : {m n : ℕ} → Matrix (Fin m) (Fin n) ℝ → Matrix (Fin m) (Fin m) ℝ × Matrix (Fin n) (Fin n) ℝ) (h : Hull L) (No : Option ℕ) :
    (Superposes fun F : Matrix (Fin K) (Fin S) ℝ => sad lstsq F h No) ∧ (Superposes fun F : Matrix (Fin K) (Fin S) ℝ => mad lstsq pinv F h No) ∧
      Superposes fun F : Matrix (Fin K) (Fin S) ℝ => epad lstsq svd F h No :=
  ⟨order_superposes _ _ fun _ => truncated_superposes _, order_superposes _ _ fun _ => truncated_superposes _, order_superposes _ _ fun _ => truncated_superposes _⟩

/-- **C140** Two groups of sources: encoding them in one call and decoding gives, loudspeaker by loudspeaker, the sum of the signals of the groups rendered
separately. The decoder may be any that superposes, hence `sad`, `mad` and `epad`. -/
theorem C140_scene {L n n' S N : ℕ} (azi zen : Fin n → ℝ) (azi' zen' : Fin n' → ℝ) (x : Matrix (Fin n) (Fin S) ℝ) (y : Matrix (Fin n') (Fin S) ℝ)
    (dec : Matrix (Fin ((N + 1) ^ 2)) (Fin S) ℝ → Py (Matrix (Fin L) (Fin S) ℝ)) (hd : Superposes dec) (a b : Matrix (Fin L) (Fin S) ℝ)
    (ha : dec (srcToSh x azi zen N) = .ok a) (hb : dec (srcToSh y azi' zen' N) = .ok b) :
    dec (srcToSh (fun i => Fin.append x y i) (Fin.append azi azi') (Fin.append zen zen') N) = .ok (a + b) := by
  have := hd 1 1 (srcToSh x azi zen N) (srcToSh y azi' zen' N)
  rw [one_smul, one_smul, ha, hb] at this
  rw [C140_groups, this]
  show Except.ok _ = Except.ok _
  rw [one_smul, one_smul]

/-! #### binauralize -/

theorem sum_abs_eq (r : List ℝ) : (r.map fun v => |v|).sum = ∑ t ∈ Finset.range r.length, |r.getD t 0| := by
  induction r with
  | nil => simp
  | cons a r ih => rw [List.map_cons, List.sum_cons, ih, List.length_cons, Finset.sum_range_succ']; simp [add_comm]

/-- A shifted part of a response has at most its absolute sum. -/
theorem shifted_le (S n : ℕ) (r : List ℝ) : (∑ s : Fin S, if (s : ℕ) ≤ n then |r.getD (n - s) 0| else 0) ≤ (r.map fun v => |v|).sum := by
  rw [Fin.sum_univ_eq_sum_range (fun s => if s ≤ n then |r.getD (n - s) 0| else 0) S, sum_abs_eq, ← Finset.sum_filter]
  calc ∑ s ∈ (Finset.range S).filter (· ≤ n), |r.getD (n - s) 0|
      = ∑ t ∈ ((Finset.range S).filter (· ≤ n)).image (n - ·), |r.getD t 0| := by
        rw [Finset.sum_image]
        intro a ha b hb hab
        simp only [Finset.coe_filter, Set.mem_setOf_eq] at ha hb
        beta_reduce at hab
        omega
    _ = ∑ t ∈ (((Finset.range S).filter (· ≤ n)).image (n - ·)).filter (· < r.length), |r.getD t 0| := by
        rw [Finset.sum_filter]
        refine Finset.sum_congr rfl fun t _ => ?_
        split_ifs with h
        · rfl
        · rw [getD_out (by omega), abs_zero]
    _ ≤ _ := Finset.sum_le_sum_of_subset_of_nonneg (fun t ht => by
        rw [Finset.mem_filter] at ht; exact Finset.mem_range.2 ht.2) fun t _ _ => abs_nonneg _

/-- One loudspeaker's part of an ear signal without the gate. -/
noncomputable def earPart {S : ℕ} (a : Fin S → ℝ) (r : List ℝ) (n : ℕ) : ℝ := ∑ s : Fin S, if (s : ℕ) ≤ n then a s * r.getD (n - s) 0 else 0

theorem earPart_comb {S : ℕ} (a b : Fin S → ℝ) (α β : ℝ) (r : List ℝ) (n : ℕ) :
    earPart (fun s => α * a s + β * b s) r n = α * earPart a r n + β * earPart b r n := by
  simp only [earPart, Finset.mul_sum, ← Finset.sum_add_distrib]
  refine Finset.sum_congr rfl fun s _ => ?_
  split_ifs <;> ring

open Classical in
theorem gate_close {S : ℕ} (a : Fin S → ℝ) (r : List ℝ) (n : ℕ) :
    |(if ∃ s, |a s| > 10e-6 then earPart a r n else 0) - earPart a r n| ≤ 10e-6 * (r.map fun v => |v|).sum := by
  have hr : 0 ≤ (r.map fun v => |v|).sum := List.sum_nonneg (by simp)
  split_ifs with h
  · rw [sub_self, abs_zero]; positivity
  · push Not at h
    rw [zero_sub, abs_neg]
    calc |earPart a r n| ≤ ∑ s : Fin S, |if (s : ℕ) ≤ n then a s * r.getD (n - s) 0 else 0| := Finset.abs_sum_le_sum_abs _ _
      _ ≤ ∑ s : Fin S, 10e-6 * (if (s : ℕ) ≤ n then |r.getD (n - s) 0| else 0) := by
          refine Finset.sum_le_sum fun s _ => ?_
          split_ifs
          · rw [abs_mul]; exact mul_le_mul_of_nonneg_right (h s) (abs_nonneg _)
          · simp
      _ = 10e-6 * ∑ s : Fin S, (if (s : ℕ) ≤ n then |r.getD (n - s) 0| else 0) := by rw [Finset.mul_sum]
      _ ≤ _ := mul_le_mul_of_nonneg_left (shifted_le S n r) (by norm_num)

theorem gate_comb {p q r p' q' r' α β ε : ℝ} (hp : |p - p'| ≤ ε) (hq : |q - q'| ≤ ε) (hr : |r - r'| ≤ ε) (h : p' = α * q' + β * r') :
    |p - (α * q + β * r)| ≤ (1 + |α| + |β|) * ε := by
  have e : p - (α * q + β * r) = (p - p') + (-(α * (q - q')) + -(β * (r - r'))) := by rw [h]; ring
  rw [e]
  refine (abs_add_le _ _).trans ?_
  have h1 := abs_add_le (-(α * (q - q'))) (-(β * (r - r')))
  rw [abs_neg, abs_neg, abs_mul, abs_mul] at h1
  have h2 := mul_le_mul_of_nonneg_left hq (abs_nonneg α)
  have h3 := mul_le_mul_of_nonneg_left hr (abs_nonneg β)
  nlinarith

theorem row_le {rows : List (List ℝ)} {B : ℝ} (h0 : 0 ≤ B) (h : ∀ r ∈ rows, (r.map fun v => |v|).sum ≤ B) (i : ℕ) : ((rows.getD i []).map fun v => |v|).sum ≤ B := by
  rw [List.getD_eq_getElem?_getD]
  cases hi : rows[i]? with
  | none => simpa using h0
  | some r => exact h r (List.mem_of_getElem? hi)

/-- **C140** `binauralize` superposes up to its gate. Missing for exact superposition: a loudspeaker whose attenuated signal never exceeds `10e-6` is left out,
so that each ear's sample may be off by `10e-6` per loudspeaker and per input, times the absolute sum `B` of a response. -/
theorem C140_binauralize_partial {L S : ℕ} (h : Hull L) (orientation : ℝ × ℝ) (hr : HRIRs) (hc : hr.Consistent) (hne : hr.azi ≠ []) (hT : 1 ≤ hr.numSamples)
    (hS : 1 ≤ S) (B : ℝ) (h0 : 0 ≤ B) (hB : ∀ r ∈ hr.left.rows ++ hr.right.rows, (r.map fun v => |v|).sum ≤ B) (α β : ℝ) (x y : Matrix (Fin L) (Fin S) ℝ) :
    ∃ lx rx ly ry lz rz : List ℝ, binauralize h x hr.fs orientation hr = .ok (lx, rx) ∧ binauralize h y hr.fs orientation hr = .ok (ly, ry) ∧
      binauralize h (α • x + β • y) hr.fs orientation hr = .ok (lz, rz) ∧ ∀ n < S + hr.numSamples - 1,
        |lz.getD n 0 - (α * lx.getD n 0 + β * ly.getD n 0)| ≤ (1 + |α| + |β|) * (10e-6 * B) * L ∧
        |rz.getD n 0 - (α * rx.getD n 0 + β * ry.getD n 0)| ≤ (1 + |α| + |β|) * (10e-6 * B) * L := by
  obtain ⟨idx, -, hu⟩ := binauralize_uniform (S := S) h orientation hr hc hne hT hS
  obtain ⟨lx, rx, x1, -, -, x2⟩ := hu x
  obtain ⟨ly, ry, y1, -, -, y2⟩ := hu y
  obtain ⟨lz, rz, z1, -, -, z2⟩ := hu (α • x + β • y)
  have key : ∀ (rows : List (List ℝ)) (n : ℕ), (∀ r ∈ rows, (r.map fun v => |v|).sum ≤ B) → ∀ k, |_ - (α * _ + β * _)| ≤ (1 + |α| + |β|) * (10e-6 * B) :=
    fun rows n hrows k => gate_comb
      ((gate_close (fun s => (α • x + β • y) k s / norm3 (h.points k - h.listener) ^ h.a) (rows.getD (idx k) []) n).trans
        (mul_le_mul_of_nonneg_left (row_le h0 hrows _) (by norm_num)))
      ((gate_close (fun s => x k s / norm3 (h.points k - h.listener) ^ h.a) (rows.getD (idx k) []) n).trans
        (mul_le_mul_of_nonneg_left (row_le h0 hrows _) (by norm_num)))
      ((gate_close (fun s => y k s / norm3 (h.points k - h.listener) ^ h.a) (rows.getD (idx k) []) n).trans
        (mul_le_mul_of_nonneg_left (row_le h0 hrows _) (by norm_num)))
      (by
        rw [← earPart_comb]
        congr 1
        funext s
        simp only [Matrix.add_apply, Matrix.smul_apply, smul_eq_mul]
        ring)
  have total : ∀ (p q r : Fin L → ℝ), (∀ k, |p k - (α * q k + β * r k)| ≤ (1 + |α| + |β|) * (10e-6 * B)) →
      |∑ k, p k - (α * ∑ k, q k + β * ∑ k, r k)| ≤ (1 + |α| + |β|) * (10e-6 * B) * L := by
    intro p q r hk
    rw [Finset.mul_sum, Finset.mul_sum, ← Finset.sum_add_distrib, ← Finset.sum_sub_distrib]
    refine (Finset.abs_sum_le_sum_abs _ _).trans ((Finset.sum_le_sum fun k _ => hk k).trans ?_)
    simp [mul_comm]
  refine ⟨lx, rx, ly, ry, lz, rz, x1, y1, z1, fun n hn => ?_⟩
  rw [(x2 n hn).1, (x2 n hn).2, (y2 n hn).1, (y2 n hn).2, (z2 n hn).1, (z2 n hn).2]
  exact ⟨total _ _ _ (key hr.left.rows n fun r hr' => hB r (List.mem_append_left _ hr')), total _ _ _ (key hr.right.rows n fun r hr' => hB r (List.mem_append_right _ hr'))⟩

/-- **C140** `binauralize` superposes exactly when in none of the three signals a loudspeaker is quiet without being silent. -/
theorem C140_binauralize_loud {L S : ℕ} (h : Hull L) (orientation : ℝ × ℝ) (hr : HRIRs) (hc : hr.Consistent) (hne : hr.azi ≠ []) (hT : 1 ≤ hr.numSamples)
    (hS : 1 ≤ S) (α β : ℝ) (x y : Matrix (Fin L) (Fin S) ℝ)
    (hl : ∀ z ∈ [x, y, α • x + β • y], ∀ k, (∀ s, z k s = 0) ∨ ∃ s, |z k s / norm3 (h.points k - h.listener) ^ h.a| > 10e-6) :
    ∃ lx rx ly ry : List ℝ, binauralize h x hr.fs orientation hr = .ok (lx, rx) ∧ binauralize h y hr.fs orientation hr = .ok (ly, ry) ∧
      binauralize h (α • x + β • y) hr.fs orientation hr
        = .ok (List.zipWith (fun u v => α * u + β * v) lx ly, List.zipWith (fun u v => α * u + β * v) rx ry) := by
  classical
  obtain ⟨idx, -, hu⟩ := binauralize_uniform (S := S) h orientation hr hc hne hT hS
  obtain ⟨lx, rx, x1, x3, x4, x2⟩ := hu x
  obtain ⟨ly, ry, y1, y3, y4, y2⟩ := hu y
  obtain ⟨lz, rz, z1, z3, z4, z2⟩ := hu (α • x + β • y)
  have open' : ∀ z ∈ [x, y, α • x + β • y], ∀ (k : Fin L) (r : List ℝ) (n : ℕ),
      (if ∃ s, |z k s / norm3 (h.points k - h.listener) ^ h.a| > 10e-6 then
        earPart (fun s => z k s / norm3 (h.points k - h.listener) ^ h.a) r n else 0) = earPart (fun s => z k s / norm3 (h.points k - h.listener) ^ h.a) r n := by
    intro z hz k r n
    split_ifs with hg
    · rfl
    · have h0 := (hl z hz k).resolve_right hg
      simp [earPart, h0]
  have key : ∀ (r : Fin L → List ℝ) (n : ℕ), (∑ k, if ∃ s, |(α • x + β • y) k s / norm3 (h.points k - h.listener) ^ h.a| > 10e-6 then
        earPart (fun s => (α • x + β • y) k s / norm3 (h.points k - h.listener) ^ h.a) (r k) n else 0)
      = α * (∑ k, if ∃ s, |x k s / norm3 (h.points k - h.listener) ^ h.a| > 10e-6 then earPart (fun s => x k s / norm3 (h.points k - h.listener) ^ h.a) (r k) n else 0)
      + β * (∑ k, if ∃ s, |y k s / norm3 (h.points k - h.listener) ^ h.a| > 10e-6 then earPart (fun s => y k s / norm3 (h.points k - h.listener) ^ h.a) (r k) n else 0) := by
    intro r n
    simp only [open' x (by simp), open' y (by simp), open' (α • x + β • y) (by simp)]
    rw [Finset.mul_sum, Finset.mul_sum, ← Finset.sum_add_distrib]
    refine Finset.sum_congr rfl fun k _ => ?_
    rw [← earPart_comb]
    congr 1
    funext s
    simp only [Matrix.add_apply, Matrix.smul_apply, smul_eq_mul]
    ring
  have lists : ∀ u v w : List ℝ, u.length = S + hr.numSamples - 1 → v.length = S + hr.numSamples - 1 → w.length = S + hr.numSamples - 1 →
      (∀ n < S + hr.numSamples - 1, w.getD n 0 = α * u.getD n 0 + β * v.getD n 0) → w = List.zipWith (fun u v => α * u + β * v) u v := by
    intro u v w hu hv hw he
    refine List.ext_getElem (by simp [hu, hv, hw]) fun n h1 h2 => ?_
    have := he n (hw ▸ h1)
    rw [List.getD_eq_getElem _ _ h1, List.getD_eq_getElem _ _ (by omega), List.getD_eq_getElem _ _ (by omega)] at this
    rw [this, List.getElem_zipWith]
  refine ⟨lx, rx, ly, ry, x1, y1, ?_⟩
  rw [z1, lists lx ly lz x3 y3 z3 fun n hn => ?_, lists rx ry rz x4 y4 z4 fun n hn => ?_]
  · rw [(x2 n hn).2, (y2 n hn).2, (z2 n hn).2]; exact key (fun k => hr.right.rows.getD (idx k) []) n
  · rw [(x2 n hn).1, (y2 n hn).1, (z2 n hn).1]; exact key (fun k => hr.left.rows.getD (idx k) []) n

theorem pair_norm : norm3 (pairHull.points 0 - pairHull.listener) = 2 := by
  simp only [norm3, pairHull, dotProduct, Fin.sum_univ_three, Pi.sub_apply]
  show √((2 - 0) * (2 - 0) + (0 - 0) * (0 - 0) + (0 - 0) * (0 - 0)) = 2
  rw [show ((2 : ℝ) - 0) * (2 - 0) + (0 - 0) * (0 - 0) + (0 - 0) * (0 - 0) = 2 ^ 2 by norm_num, sqrt_sq (by norm_num)]

/-- **C140** fails for `binauralize`: one loudspeaker plays a sample of `15e-6`, which the distance of two metres halves. The result is silence in both ears; twice the
signal is audible. -/
theorem C140_binauralize_fails : ∃ l r l' r' : List ℝ, binauralize pairHull !![15e-6, 0; 0, 0] 48000 (0, 0) twoHrirs = .ok (l, r) ∧
    binauralize pairHull ((2 : ℝ) • !![15e-6, 0; 0, 0]) 48000 (0, 0) twoHrirs = .ok (l', r') ∧ (∀ n < 3, l.getD n 0 = 0 ∧ r.getD n 0 = 0) ∧ 7e-6 < l'.getD 0 0 := by
  classical
  obtain ⟨idx, hi, hu⟩ := binauralize_uniform (S := 2) pairHull (0, 0) twoHrirs twoHrirs_consistent twoHrirs_grid.2.1 (by simp [twoHrirs]) (by norm_num)
  obtain ⟨l, r, e1, -, -, e2⟩ := hu !![15e-6, 0; 0, 0]
  obtain ⟨l', r', f1, -, -, f2⟩ := hu ((2 : ℝ) • !![15e-6, 0; 0, 0])
  have ha : pairHull.a = 1 := rfl
  have hN : 2 + twoHrirs.numSamples - 1 = 3 := rfl
  refine ⟨l, r, l', r', e1, f1, fun n hn => ?_, ?_⟩
  · have hq : ∀ k : Fin 2, ¬ ∃ s : Fin 2, |(!![15e-6, 0; 0, 0] : Matrix (Fin 2) (Fin 2) ℝ) k s / norm3 (pairHull.points k - pairHull.listener) ^ pairHull.a| > 10e-6 := by
      have hz : ∀ d : ℝ, ¬ |(0 : ℝ) / d| > 10e-6 := fun d => by rw [zero_div, abs_zero]; norm_num
      rintro k ⟨s, hs⟩
      match k, s, hs with
      | 0, 0, hs =>
        rw [pair_norm, ha] at hs
        change |15e-6 / (2 : ℝ) ^ 1| > 10e-6 at hs
        rw [abs_of_pos (by norm_num)] at hs
        norm_num at hs
      | 0, 1, hs => exact hz _ hs
      | 1, 0, hs => exact hz _ hs
      | 1, 1, hs => exact hz _ hs
    rw [(e2 n (hN ▸ hn)).1, (e2 n (hN ▸ hn)).2]
    simp only [hq, if_false, Finset.sum_const_zero, and_self]
  · rw [(f2 0 (by rw [hN]; norm_num)).1, Fin.sum_univ_two]
    have h0 : ∃ s : Fin 2, |((2 : ℝ) • !![15e-6, 0; 0, 0] : Matrix (Fin 2) (Fin 2) ℝ) 0 s / norm3 (pairHull.points 0 - pairHull.listener) ^ pairHull.a| > 10e-6 := by
      refine ⟨0, ?_⟩
      rw [pair_norm, ha]
      simp [Matrix.smul_apply]; norm_num [abs_of_pos]
    have h1 : ¬ ∃ s : Fin 2, |((2 : ℝ) • !![15e-6, 0; 0, 0] : Matrix (Fin 2) (Fin 2) ℝ) 1 s / norm3 (pairHull.points 1 - pairHull.listener) ^ pairHull.a| > 10e-6 := by
      have hz : ∀ d : ℝ, ¬ |2 * (0 : ℝ) / d| > 10e-6 := fun d => by rw [mul_zero, zero_div, abs_zero]; norm_num
      rintro ⟨s, hs⟩
      match s, hs with
      | 0, hs => exact hz _ hs
      | 1, hs => exact hz _ hs
    rw [if_pos h0, if_neg h1, Fin.sum_univ_two, pair_norm, ha]
    have hrow : (twoHrirs.left.rows.getD (idx 0) []).getD 0 0 ≥ 0.5 := by
      obtain ⟨ga, -, hg, -⟩ := hi 0
      have : idx 0 < 2 := by
        have := (List.getElem?_eq_some_iff.1 hg).1
        simpa [twoHrirs] using this
      interval_cases idx 0 <;> norm_num [twoHrirs]
    simp [Matrix.smul_apply] at hrow ⊢
    nlinarith

/-! #### examples -/

/-- `C140_scene` with `mad` on the octahedron: one source in front, two others elsewhere. -/
example : ∃ (lstsq : Mat3 → Mat3) (pinv : {m n : ℕ} → Matrix (Fin m) (Fin n) ℝ → Matrix (Fin n) (Fin m) ℝ), (∀ {m n : ℕ} (A : Matrix (Fin m) (Fin n) ℝ), IsPinv A (pinv A)) ∧
    ∀ (x : Matrix (Fin 1) (Fin 5) ℝ) (y : Matrix (Fin 2) (Fin 5) ℝ), ∃ a b, mad lstsq pinv (srcToSh x ![0] ![1] 1) Oct.hull (some 1) = .ok a ∧
      mad lstsq pinv (srcToSh y ![1, 2] ![1, 2] 1) Oct.hull (some 1) = .ok b ∧
      mad lstsq pinv (srcToSh (fun i => Fin.append x y i) (Fin.append ![0] ![1, 2]) (Fin.append ![1] ![1, 2]) 1) Oct.hull (some 1) = .ok (a + b) := by
  choose P hP using fun (m n : ℕ) (A : Matrix (Fin m) (Fin n) ℝ) => exists_pinv A
  refine ⟨fun M => M, fun {m n} A => P m n A, fun A => hP _ _ A, fun x y => ?_⟩
  have hsome : ∀ F : Matrix (Fin ((1 + 1) ^ 2)) (Fin 5) ℝ, ∃ a, mad (fun M => M) (fun {m n} A => P m n A) F Oct.hull (some 1) = .ok a := fun F => by
    have key : ∀ D : Matrix (Fin 6) (Fin ((1 + 1) ^ 2)) ℝ, ∃ a, applyTruncated D F = .ok a := fun D =>
      ⟨D * F.submatrix (Fin.castLE le_rfl) id, by unfold applyTruncated; rw [if_neg (not_not.2 ((shOrder_ge _ 1).2 le_rfl)), dif_pos le_rfl]⟩
    exact key _
  obtain ⟨a, ha⟩ := hsome (srcToSh x ![0] ![1] 1)
  obtain ⟨b, hb⟩ := hsome (srcToSh y ![1, 2] ![1, 2] 1)
  exact ⟨a, b, ha, hb, C140_scene _ _ _ _ x y _ (C140_decoders _ (fun {m n} A => P m n A) (fun {m n} _ => (0, 0)) _ _).2.1 a b ha hb⟩

/-- `C140_binauralize_partial` and `C140_binauralize_loud`: two loudspeakers, two HRIRs. -/
example (x y : Matrix (Fin 2) (Fin 3) ℝ) : ∃ lx rx ly ry lz rz : List ℝ, binauralize pairHull x 48000 (0.1, 0) twoHrirs = .ok (lx, rx) ∧
    binauralize pairHull y 48000 (0.1, 0) twoHrirs = .ok (ly, ry) ∧ binauralize pairHull ((1 : ℝ) • x + (1 : ℝ) • y) 48000 (0.1, 0) twoHrirs = .ok (lz, rz) ∧
    |lz.getD 1 0 - (1 * lx.getD 1 0 + 1 * ly.getD 1 0)| ≤ 60e-6 := by
  obtain ⟨lx, rx, ly, ry, lz, rz, h1, h2, h3, h4⟩ := C140_binauralize_partial (S := 3) pairHull (0.1, 0) twoHrirs twoHrirs_consistent twoHrirs_grid.2.1
    (by simp [twoHrirs]) (by norm_num) 1 (by norm_num) (by intro r hr; simp [twoHrirs] at hr; rcases hr with rfl | rfl | rfl | rfl <;> norm_num [abs_of_pos]) 1 1 x y
  refine ⟨lx, rx, ly, ry, lz, rz, h1, h2, h3, (h4 1 (by simp [twoHrirs])).1.trans ?_⟩
  norm_num

example : ∃ lx rx ly ry : List ℝ, binauralize pairHull !![1, 0, 2; 0, 0, 0] 48000 (0.1, 0) twoHrirs = .ok (lx, rx) ∧
    binauralize pairHull !![0, 1, 0; 0, 0, 0] 48000 (0.1, 0) twoHrirs = .ok (ly, ry) ∧
    binauralize pairHull ((2 : ℝ) • !![1, 0, 2; 0, 0, 0] + (3 : ℝ) • !![0, 1, 0; 0, 0, 0]) 48000 (0.1, 0) twoHrirs
      = .ok (List.zipWith (fun u v => 2 * u + 3 * v) lx ly, List.zipWith (fun u v => 2 * u + 3 * v) rx ry) := by
  refine C140_binauralize_loud pairHull (0.1, 0) twoHrirs twoHrirs_consistent twoHrirs_grid.2.1 (by simp [twoHrirs]) (by norm_num) 2 3 _ _ fun z hz k => ?_
  have ha : pairHull.a = 1 := rfl
  simp only [List.mem_cons, List.not_mem_nil, or_false] at hz
  match k with
  | 1 => left; intro s; rcases hz with rfl | rfl | rfl <;> fin_cases s <;> simp
  | 0 =>
    right
    rw [pair_norm, ha]
    rcases hz with rfl | rfl | rfl
    · refine ⟨0, ?_⟩; show |(1 : ℝ) / 2 ^ 1| > 10e-6; rw [abs_of_pos] <;> norm_num
    · refine ⟨1, ?_⟩; show |(1 : ℝ) / 2 ^ 1| > 10e-6; rw [abs_of_pos] <;> norm_num
    · refine ⟨0, ?_⟩; show |((2 : ℝ) * 1 + 3 * 0) / 2 ^ 1| > 10e-6; rw [abs_of_pos] <;> norm_num

/-- `C140_sht_lstsq`: three directions do not determine the nine coefficients of second order. -/
example : ∃ lstsq : (K : ℕ) → Matrix (Fin 3) (Fin K) ℝ → Matrix (Fin 3) (Fin 2) ℝ → Matrix (Fin K) (Fin 2) ℝ, ∀ f g : Matrix (Fin 3) (Fin 2) ℝ,
    shtLstsq lstsq ((2 : ℝ) • f + (3 : ℝ) • g) 2 ![0, 1, 2] ![1, 1, 2] = (2 : ℝ) • shtLstsq lstsq f 2 ![0, 1, 2] ![1, 1, 2] + (3 : ℝ) • shtLstsq lstsq g 2 ![0, 1, 2] ![1, 1, 2] := by
  choose l hl using fun (K : ℕ) (A : Matrix (Fin 3) (Fin K) ℝ) (b : Matrix (Fin 3) (Fin 2) ℝ) => exists_lstsq A b
  exact ⟨l, fun f g => C140_sht_lstsq l hl 2 _ _ 2 3 f g⟩

/-- `C140_rotate`: five samples of second order are rotated, seven channels are rejected. -/
example (x y : Matrix (Fin 5) (Fin ((2 + 1) ^ 2)) ℝ) : ∃ a b : Matrix (Fin 5) (Fin ((2 + 1) ^ 2)) ℝ, rotateSh ⟨5, (2 + 1) ^ 2, x⟩ 1 2 3 .real = .ok ⟨5, (2 + 1) ^ 2, a⟩ ∧
    rotateSh ⟨5, (2 + 1) ^ 2, y⟩ 1 2 3 .real = .ok ⟨5, (2 + 1) ^ 2, b⟩ ∧
    rotateSh ⟨5, (2 + 1) ^ 2, (2 : ℝ) • x + (-1 : ℝ) • y⟩ 1 2 3 .real = .ok ⟨5, (2 + 1) ^ 2, (2 : ℝ) • a + (-1 : ℝ) • b⟩ := by
  have hx := rotateSh_eq 2 5 (by norm_num) 1 2 3 x
  have hy := rotateSh_eq 2 5 (by norm_num) 1 2 3 y
  refine ⟨_, _, hx, hy, ?_⟩
  rcases C140_rotate 1 2 3 .real 5 ((2 + 1) ^ 2) 2 (-1) x y with ⟨e, h, -⟩ | ⟨R', C', a, b, h1, h2, h3⟩
  · cases hx.symm.trans h
  · cases hx.symm.trans h1; cases hy.symm.trans h2
    exact h3

end Verif.Props
