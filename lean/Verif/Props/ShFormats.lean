import Verif.Proofs.Addition
import Verif.Model.SphCore
import Verif.Props.Acn
import Verif.Props.ShRotation

/-!
C12-C15: channel format conversions (N3D/SN3D, B-format, tetrahedral microphone).
-/

namespace Verif.Sph
open Real Verif.Solid Verif.Utils

/-! ### C12 -/

theorem scalePerOrder_rows (c : ℕ → ℝ) (N S : ℕ) (F : Matrix (Fin ((N + 1) ^ 2)) (Fin S) ℝ) :
    scalePerOrder c ⟨(N + 1) ^ 2, S, F⟩ false = .ok ⟨(N + 1) ^ 2, S, fun q s => c (acnOrder q) * F q s⟩ := by
  have hl : (((List.range (N + 1)).map c)).length = N + 1 := by simp
  have hlen := (C10_repeatPerOrder _ N hl).1
  have hN : ((N : ℤ) + 1).toNat = N + 1 := by omega
  unfold scalePerOrder
  simp only [Bool.false_eq_true, if_false, C11_order_square, hN, hlen]
  rw [if_pos (Or.inl trivial)]
  congr 2
  funext q s
  congr 1
  rw [C10_repeatPerOrder_vector]
  by_cases h1 : (N + 1) ^ 2 = 1
  · have hN0 : N = 0 := by
      have : N + 1 = 1 := by nlinarith
      omega
    subst hN0
    simp [List.getD, repVec]
  · rw [if_neg h1, List.getD_eq_getElem?_getD, List.getElem?_ofFn]
    simp [q.2, repVec]

theorem scalePerOrder_cols (c : ℕ → ℝ) (N S : ℕ) (F : Matrix (Fin S) (Fin ((N + 1) ^ 2)) ℝ) :
    scalePerOrder c ⟨S, (N + 1) ^ 2, F⟩ true = .ok ⟨S, (N + 1) ^ 2, fun s q => c (acnOrder q) * F s q⟩ := by
  have hl : (((List.range (N + 1)).map c)).length = N + 1 := by simp
  have hlen := (C10_repeatPerOrder _ N hl).1
  have hN : ((N : ℤ) + 1).toNat = N + 1 := by omega
  unfold scalePerOrder
  simp only [if_true, C11_order_square, hN, hlen]
  rw [if_pos (Or.inl trivial)]
  congr 2
  funext s q
  congr 1
  rw [C10_repeatPerOrder_vector]
  by_cases h1 : (N + 1) ^ 2 = 1
  · have hN0 : N = 0 := by
      have : N + 1 = 1 := by nlinarith
      omega
    subst hN0
    simp [List.getD, repVec]
  · rw [if_neg h1, List.getD_eq_getElem?_getD, List.getElem?_ofFn]
    simp [q.2, repVec]

theorem acnOrder_of_acn {n : ℕ} {m : ℤ} (hm : |m| ≤ n) {q : ℕ} (hq : (q : ℤ) = acn n m) : acnOrder q = n := by
  obtain ⟨k, hk, e, _⟩ := acn_toNat hm
  have : q = n ^ 2 + k := by rw [← e, ← hq]; simp
  rw [this, acnOrder_eq hk]

/-- C12: along the first axis both conversions scale channel `n² + n + m` by `1/√(2n+1)` respectively `√(2n+1)`. -/
theorem C12_scaling (N S : ℕ) (F : Matrix (Fin ((N + 1) ^ 2)) (Fin S) ℝ) :
    ∃ G H, n3dToSn3d ⟨(N + 1) ^ 2, S, F⟩ false = .ok ⟨(N + 1) ^ 2, S, G⟩ ∧
      sn3dToN3d ⟨(N + 1) ^ 2, S, F⟩ false = .ok ⟨(N + 1) ^ 2, S, H⟩ ∧
      ∀ (n : ℕ) (m : ℤ), |m| ≤ n → ∀ (q : Fin ((N + 1) ^ 2)), (q.val : ℤ) = acn n m → ∀ s,
        G q s = 1 / √(2 * n + 1) * F q s ∧ H q s = √(2 * n + 1) * F q s := by
  refine ⟨_, _, scalePerOrder_rows _ N S F, scalePerOrder_rows _ N S F, ?_⟩
  intro n m hm q hq s
  rw [acnOrder_of_acn hm hq]
  exact ⟨rfl, rfl⟩

/-- C12: the same along the second axis. -/
theorem C12_scaling_axis1 (N S : ℕ) (F : Matrix (Fin S) (Fin ((N + 1) ^ 2)) ℝ) :
    ∃ G H, n3dToSn3d ⟨S, (N + 1) ^ 2, F⟩ true = .ok ⟨S, (N + 1) ^ 2, G⟩ ∧
      sn3dToN3d ⟨S, (N + 1) ^ 2, F⟩ true = .ok ⟨S, (N + 1) ^ 2, H⟩ ∧
      ∀ (n : ℕ) (m : ℤ), |m| ≤ n → ∀ (q : Fin ((N + 1) ^ 2)), (q.val : ℤ) = acn n m → ∀ s,
        G s q = 1 / √(2 * n + 1) * F s q ∧ H s q = √(2 * n + 1) * F s q := by
  refine ⟨_, _, scalePerOrder_cols _ N S F, scalePerOrder_cols _ N S F, ?_⟩
  intro n m hm q hq s
  rw [acnOrder_of_acn hm hq]
  exact ⟨rfl, rfl⟩

/-- C12: the omnidirectional channel is untouched. -/
theorem C12_omni (N S : ℕ) (F : Matrix (Fin ((N + 1) ^ 2)) (Fin S) ℝ) :
    ∃ G H, n3dToSn3d ⟨(N + 1) ^ 2, S, F⟩ false = .ok ⟨(N + 1) ^ 2, S, G⟩ ∧
      sn3dToN3d ⟨(N + 1) ^ 2, S, F⟩ false = .ok ⟨(N + 1) ^ 2, S, H⟩ ∧
      ∀ s, G ⟨0, sq_pos' N⟩ s = F ⟨0, sq_pos' N⟩ s ∧ H ⟨0, sq_pos' N⟩ s = F ⟨0, sq_pos' N⟩ s := by
  obtain ⟨G, H, hG, hH, h⟩ := C12_scaling N S F
  refine ⟨G, H, hG, hH, fun s => ?_⟩
  have := h 0 0 (by simp) ⟨0, sq_pos' N⟩ (by simp [acn]) s
  simpa using this

theorem sqrt_odd_ne (n : ℕ) : √(2 * (n : ℝ) + 1) ≠ 0 := by positivity

/-- C12: the two conversions are inverse to each other, along either axis. -/
theorem C12_inverse (N S : ℕ) :
    (∀ F : Matrix (Fin ((N + 1) ^ 2)) (Fin S) ℝ,
      (n3dToSn3d ⟨(N + 1) ^ 2, S, F⟩ false).bind (sn3dToN3d · false) = .ok ⟨(N + 1) ^ 2, S, F⟩ ∧
      (sn3dToN3d ⟨(N + 1) ^ 2, S, F⟩ false).bind (n3dToSn3d · false) = .ok ⟨(N + 1) ^ 2, S, F⟩) ∧
    (∀ F : Matrix (Fin S) (Fin ((N + 1) ^ 2)) ℝ,
      (n3dToSn3d ⟨S, (N + 1) ^ 2, F⟩ true).bind (sn3dToN3d · true) = .ok ⟨S, (N + 1) ^ 2, F⟩ ∧
      (sn3dToN3d ⟨S, (N + 1) ^ 2, F⟩ true).bind (n3dToSn3d · true) = .ok ⟨S, (N + 1) ^ 2, F⟩) := by
  unfold n3dToSn3d sn3dToN3d
  refine ⟨fun F => ⟨?_, ?_⟩, fun F => ⟨?_, ?_⟩⟩
  · rw [scalePerOrder_rows, Except.bind]
    refine (scalePerOrder_rows _ N S _).trans ?_
    congr 2; funext q s
    have := sqrt_odd_ne (acnOrder q); field_simp
  · rw [scalePerOrder_rows, Except.bind]
    refine (scalePerOrder_rows _ N S _).trans ?_
    congr 2; funext q s
    have := sqrt_odd_ne (acnOrder q); field_simp
  · rw [scalePerOrder_cols, Except.bind]
    refine (scalePerOrder_cols _ N S _).trans ?_
    congr 2; funext s q
    have := sqrt_odd_ne (acnOrder q); field_simp
  · rw [scalePerOrder_cols, Except.bind]
    refine (scalePerOrder_cols _ N S _).trans ?_
    congr 2; funext s q
    have := sqrt_odd_ne (acnOrder q); field_simp

example : ∃ G, n3dToSn3d ⟨(1 + 1) ^ 2, 1, fun q _ => q⟩ false = .ok ⟨(1 + 1) ^ 2, 1, G⟩ ∧ G 3 0 = 1 / √3 * 3 := by
  obtain ⟨G, _, h, _, hs⟩ := C12_scaling 1 1 (fun q _ => q)
  refine ⟨G, h, ?_⟩
  rw [(hs 1 1 (by norm_num) 3 (by simp [acn]) 0).1]
  norm_num

theorem scalePerOrder_surplus (c : ℕ → ℝ) (hc : c 0 = 1) (F : NpMat) (axis1 : Bool) :
    (4 ≤ (if axis1 then F.cols else F.rows) → (¬ ∃ n, n ^ 2 = if axis1 then F.cols else F.rows) →
      scalePerOrder c F axis1 = .error .valueError) ∧
    ((if axis1 then F.cols else F.rows) = 2 ∨ (if axis1 then F.cols else F.rows) = 3 → scalePerOrder c F axis1 = .ok F) := by
  unfold scalePerOrder
  generalize hK : (if axis1 then F.cols else F.rows) = K
  constructor
  · intro h4 hsq
    obtain ⟨n, k, hk, rfl, ho⟩ := acn_decomp K
    have hn2 : 2 ≤ n := by by_contra hc; interval_cases n <;> omega
    obtain ⟨N, rfl⟩ : ∃ N, n = N + 1 := ⟨n - 1, by omega⟩
    have hord : shOrder ((N + 1) ^ 2 + k) = N := C11_order_surplus N k (by omega)
    have hN : ((N : ℤ) + 1).toNat = N + 1 := by omega
    simp only [hord, hN]
    rw [(C10_repeatPerOrder _ N (by simp)).1, if_neg]
    rintro (h | h)
    · exact hsq ⟨N + 1, h⟩
    · nlinarith
  · intro h
    have hord : shOrder K = (0 : ℕ) := by
      rcases h with rfl | rfl
      · exact C11_order_surplus 0 1 (by norm_num)
      · exact C11_order_surplus 0 2 (by norm_num)
    simp only [hord]
    norm_num [repeatPerOrder, hc]

/-- C12: for both conversions and along either axis, a channel count that is no perfect square is rejected (from 5 channels on),
while two or three channels are passed through unscaled, because the single factor is broadcast. -/
theorem C12_no_square (K S : ℕ) (F : Matrix (Fin K) (Fin S) ℝ) (G : Matrix (Fin S) (Fin K) ℝ) :
    (4 ≤ K → (¬ ∃ n, n ^ 2 = K) →
      n3dToSn3d ⟨K, S, F⟩ false = .error .valueError ∧ sn3dToN3d ⟨K, S, F⟩ false = .error .valueError ∧
      n3dToSn3d ⟨S, K, G⟩ true = .error .valueError ∧ sn3dToN3d ⟨S, K, G⟩ true = .error .valueError) ∧
    (K = 2 ∨ K = 3 →
      n3dToSn3d ⟨K, S, F⟩ false = .ok ⟨K, S, F⟩ ∧ sn3dToN3d ⟨K, S, F⟩ false = .ok ⟨K, S, F⟩ ∧
      n3dToSn3d ⟨S, K, G⟩ true = .ok ⟨S, K, G⟩ ∧ sn3dToN3d ⟨S, K, G⟩ true = .ok ⟨S, K, G⟩) := by
  have c1 : (fun n : ℕ => 1 / √(2 * (n : ℝ) + 1)) 0 = 1 := by norm_num
  have c2 : (fun n : ℕ => √(2 * (n : ℝ) + 1)) 0 = 1 := by norm_num
  have a1 := scalePerOrder_surplus (fun n : ℕ => 1 / √(2 * (n : ℝ) + 1)) c1 ⟨K, S, F⟩ false
  have a2 := scalePerOrder_surplus (fun n : ℕ => √(2 * (n : ℝ) + 1)) c2 ⟨K, S, F⟩ false
  have a3 := scalePerOrder_surplus (fun n : ℕ => 1 / √(2 * (n : ℝ) + 1)) c1 ⟨S, K, G⟩ true
  have a4 := scalePerOrder_surplus (fun n : ℕ => √(2 * (n : ℝ) + 1)) c2 ⟨S, K, G⟩ true
  simp only [Bool.false_eq_true, if_false, if_true] at a1 a2 a3 a4
  exact ⟨fun h h' => ⟨a1.1 h h', a2.1 h h', a3.1 h h', a4.1 h h'⟩, fun h => ⟨a1.2 h, a2.2 h, a3.2 h, a4.2 h⟩⟩

example : 4 ≤ 5 ∧ ¬ ∃ n, n ^ 2 = 5 := by
  refine ⟨by norm_num, ?_⟩
  rintro ⟨n, hn⟩
  have : n ≤ 2 := by nlinarith
  interval_cases n <;> omega

/-! ### C13 -/

/-- The inverse of the conversion matrix. -/
noncomputable def bInv (w : ℝ) : Matrix (Fin 4) (Fin 4) ℝ :=
  (1 / √(4 * π)) • !![1 / w, 0, 0, 0; 0, 0, √3, 0; 0, 0, 0, √3; 0, √3, 0, 0]

theorem bMat_mul_inv (w : Option ℝ) (hw : w.getD 1 ≠ 0) : bMat w * bInv (w.getD 1) = 1 := by
  have h4 : √(4 * π) ≠ 0 := by positivity
  have h3 : √3 * √3 = (3 : ℝ) := Real.mul_self_sqrt (by norm_num)
  have h3' : √(3 : ℝ) ≠ 0 := by positivity
  unfold bMat bInv
  rw [Matrix.smul_mul, Matrix.mul_smul, smul_smul, mul_one_div_cancel h4, one_smul]
  ext i j
  fin_cases i <;> fin_cases j <;> simp [Matrix.mul_apply, Fin.sum_univ_four, hw, h3']

theorem bMat_inv (w : Option ℝ) (hw : w.getD 1 ≠ 0) : (bMat w)⁻¹ = bInv (w.getD 1) :=
  Matrix.inv_eq_right_inv (bMat_mul_inv w hw)

theorem bMat_det (w : Option ℝ) : (bMat w).det = 0 ↔ w.getD 1 = 0 := by
  constructor
  · intro h
    by_contra hw
    have := congrArg Matrix.det (bMat_mul_inv w hw)
    rw [Matrix.det_mul, h, zero_mul, Matrix.det_one] at this
    exact zero_ne_one this
  · intro h
    apply Matrix.det_eq_zero_of_row_eq_zero 0
    intro j
    unfold bMat
    rw [h]
    fin_cases j <;> simp

theorem matmul_ok {a b c : ℕ} (A : Matrix (Fin a) (Fin b) ℝ) (B : Matrix (Fin b) (Fin c) ℝ) :
    NpMat.matmul ⟨a, b, A⟩ ⟨b, c, B⟩ = .ok ⟨a, c, A * B⟩ := by
  unfold NpMat.matmul
  exact dif_pos (rfl : b = b)

/-- C13: the B-format channels of ACN channels (W, Y, Z, X): W scaled by the weight, then X, Y, Z. -/
theorem C13_channels (S : ℕ) (F : Matrix (Fin 4) (Fin S) ℝ) (w : Option ℝ) :
    ∃ B, shToB ⟨4, S, F⟩ w = .ok ⟨4, S, B⟩ ∧ ∀ s,
      B 0 s = √(4 * π) * (w.getD 1 * F 0 s) ∧
      B 1 s = √(4 * π) / √3 * F 3 s ∧
      B 2 s = √(4 * π) / √3 * F 1 s ∧
      B 3 s = √(4 * π) / √3 * F 2 s := by
  refine ⟨_, matmul_ok _ _, fun s => ?_⟩
  simp only [bMat, Matrix.mul_apply, Fin.sum_univ_four, Matrix.smul_apply, Matrix.of_apply, Matrix.cons_val', Matrix.cons_val_zero,
    Matrix.cons_val_one, Matrix.cons_val, smul_eq_mul]
  refine ⟨by ring, by ring, by ring, by ring⟩

/-- C13: both round trips, for every non-zero weight (default 1). -/
theorem C13_round_trip (S : ℕ) (F : Matrix (Fin 4) (Fin S) ℝ) (w : Option ℝ) (hw : w ≠ some 0) :
    (shToB ⟨4, S, F⟩ w).bind (bToSh · w) = .ok ⟨4, S, F⟩ ∧
    (bToSh ⟨4, S, F⟩ w).bind (shToB · w) = .ok ⟨4, S, F⟩ := by
  have hw' : w.getD 1 ≠ 0 := by
    cases w with
    | none => simp
    | some v => simpa using hw
  have hd : (bMat w).det ≠ 0 := fun h => hw' ((bMat_det w).1 h)
  have hr := bMat_mul_inv w hw'
  have hl : bInv (w.getD 1) * bMat w = 1 := mul_eq_one_comm.1 hr
  unfold shToB bToSh
  simp only [if_neg hd, bMat_inv w hw', matmul_ok, Except.bind]
  constructor
  · rw [← Matrix.mul_assoc, hl, Matrix.one_mul]
  · rw [← Matrix.mul_assoc, hr, Matrix.one_mul]

/-- C13: a zero weight cannot be inverted and raises; other than four channels are rejected. -/
theorem C13_errors (K S : ℕ) (F : Matrix (Fin K) (Fin S) ℝ) (w : Option ℝ) :
    bToSh ⟨K, S, F⟩ (some 0) = .error .linAlgError ∧
    (K ≠ 4 → shToB ⟨K, S, F⟩ w = .error .valueError) := by
  constructor
  · unfold bToSh; rw [if_pos ((bMat_det _).2 rfl)]
  · intro h
    unfold shToB NpMat.matmul
    exact dif_neg (fun h' : (4 : ℕ) = K => h h'.symm)

example : (shToB ⟨4, 1, fun q _ => q⟩ (some (1 / √2))).bind (bToSh · (some (1 / √2))) = .ok ⟨4, 1, fun q _ => q⟩ :=
  (C13_round_trip 1 _ _ (by simp)).1

/-! ### C14 -/

/-- First-order harmonics are the Cartesian coordinates. -/
theorem realSH_first (azi zen : ℝ) (hz : zen ∈ Set.Icc 0 π) :
    realSH 0 0 azi zen = 1 / √(4 * π) ∧
    realSH 1 (-1) azi zen = √3 / √(4 * π) * (sin azi * sin zen) ∧
    realSH 1 0 azi zen = √3 / √(4 * π) * cos zen ∧
    realSH 1 1 azi zen = √3 / √(4 * π) * (cos azi * sin zen) := by
  have hx : ∀ j : Fin 3, ∀ x y z : ℝ, harm x y z 1 (idx j) = ![x, y, z] j := by
    intro j x y z
    have h := congrArg (MvPolynomial.aeval ![x, y, z]) (fh_one j)
    rw [fh, map_harm] at h
    simpa using h
  have h0 := realSH_dir 0 0 azi zen hz
  have hm := realSH_dir 1 (-1) azi zen hz
  have hc := realSH_dir 1 0 azi zen hz
  have hp := realSH_dir 1 1 azi zen hz
  have i0 : idx 0 = 1 := rfl
  have i1 : idx 1 = -1 := rfl
  have i2 : idx 2 = 0 := rfl
  have e3 : √((2 * ((1 : ℕ) : ℝ) + 1) / (4 * π)) = √3 / √(4 * π) := by
    rw [Real.sqrt_div (by norm_num)]; norm_num
  rw [harm_order_zero] at h0
  rw [← i1, hx 1, e3] at hm
  rw [← i2, hx 2, e3] at hc
  rw [← i0, hx 0, e3] at hp
  refine ⟨?_, hm, hc, hp⟩
  rw [h0, Nat.cast_zero, mul_zero, zero_add, mul_one, Real.sqrt_div (by norm_num), Real.sqrt_one]

theorem shVec_first (azi zen : ℝ) (hz : zen ∈ Set.Icc 0 π) :
    shVec 1 azi zen (0 : Fin 4) = 1 / √(4 * π) ∧
    shVec 1 azi zen (1 : Fin 4) = √3 / √(4 * π) * (sin azi * sin zen) ∧
    shVec 1 azi zen (2 : Fin 4) = √3 / √(4 * π) * cos zen ∧
    shVec 1 azi zen (3 : Fin 4) = √3 / √(4 * π) * (cos azi * sin zen) := by
  have o0 : acnOrder 0 = 0 := by decide +kernel
  have o1 : acnOrder 1 = 1 := by decide +kernel
  have o2 : acnOrder 2 = 1 := by decide +kernel
  have o3 : acnOrder 3 = 1 := by decide +kernel
  have d0 : acnDegree 0 = 0 := by simp [acnDegree, o0]
  have d1 : acnDegree 1 = -1 := by simp [acnDegree, o1]
  have d2 : acnDegree 2 = 0 := by simp [acnDegree, o2]
  have d3 : acnDegree 3 = 1 := by simp [acnDegree, o3]
  obtain ⟨h0, hm, hc, hp⟩ := realSH_first azi zen hz
  unfold shVec
  refine ⟨?_, ?_, ?_, ?_⟩
  · exact (by rw [← h0]; exact congrArg₂ (fun n m => realSH n m azi zen) o0 d0)
  · exact (by rw [← hm]; exact congrArg₂ (fun n m => realSH n m azi zen) o1 d1)
  · exact (by rw [← hc]; exact congrArg₂ (fun n m => realSH n m azi zen) o2 d2)
  · exact (by rw [← hp]; exact congrArg₂ (fun n m => realSH n m azi zen) o3 d3)

/-- C14: encoding a plane wave with `src_to_sh` at order 1 and converting to B-format is what `src_to_b` returns: rows
W, X, Y, Z are the signal times 1 and the Cartesian components of the direction. -/
theorem C14_b_encoding (S : ℕ) (sig : Fin S → ℝ) (azi zen : ℝ) (hz : zen ∈ Set.Icc 0 π) :
    ∃ B, shToB ⟨4, S, srcToSh (fun _ : Fin 1 => sig) (fun _ => azi) (fun _ => zen) 1⟩ none = .ok ⟨4, S, B⟩ ∧
      srcToB (List.ofFn sig) [(azi, zen)] = List.ofFn (fun c => List.ofFn (B c)) ∧
      ∀ s, B 0 s = sig s ∧ B 1 s = cos azi * sin zen * sig s ∧ B 2 s = sin azi * sin zen * sig s ∧
        B 3 s = cos zen * sig s := by
  have h4 : √(4 * π) ≠ 0 := by positivity
  have h3 : √(3 : ℝ) ≠ 0 := by positivity
  obtain ⟨B, hB, hc⟩ := C13_channels S (srcToSh (fun _ : Fin 1 => sig) (fun _ => azi) (fun _ => zen) 1) none
  obtain ⟨e0, e1, e2, e3⟩ := shVec_first azi zen hz
  have hs : ∀ (q : Fin 4) s, (srcToSh (fun _ : Fin 1 => sig) (fun _ => azi) (fun _ => zen) 1 : Matrix (Fin 4) (Fin S) ℝ) q s
      = shVec 1 azi zen q * sig s := by
    intro q s
    unfold srcToSh
    refine (Matrix.mul_apply).trans ?_
    rw [Fin.sum_univ_one]; rfl
  have hval : ∀ s, B 0 s = sig s ∧ B 1 s = cos azi * sin zen * sig s ∧ B 2 s = sin azi * sin zen * sig s ∧
        B 3 s = cos zen * sig s := by
    intro s
    obtain ⟨c0, c1, c2, c3⟩ := hc s
    rw [c0, c1, c2, c3, hs, hs, hs, hs, e0, e1, e2, e3]
    simp only [Option.getD_none]
    refine ⟨by field_simp, by field_simp, by field_simp, by field_simp⟩
  refine ⟨B, hB, ?_, hval⟩
  have hrow : ∀ (c : Fin 4) (g : ℝ), (∀ s, B c s = g * sig s) → (List.ofFn sig).map (g * ·) = List.ofFn (B c) := by
    intro c g h
    rw [List.map_ofFn]
    congr 1
    funext s; rw [h s]; rfl
  have hlist : List.ofFn (fun c => List.ofFn (B c)) = [List.ofFn (B 0), List.ofFn (B 1), List.ofFn (B 2), List.ofFn (B 3)] := by
    simp [List.ofFn_succ]
  rw [hlist, ← hrow 0 1 (fun s => by rw [(hval s).1, one_mul]), ← hrow 1 _ (fun s => (hval s).2.1),
    ← hrow 2 _ (fun s => (hval s).2.2.1), ← hrow 3 _ (fun s => (hval s).2.2.2)]
  unfold srcToB
  simp [sph2cart]

example : srcToB [5] [(π / 2, π / 2)] = [[5], [0], [5], [0]] := by
  simp [srcToB, sph2cart]

/-! ### C15 -/

theorem tetra_unit (q : Fin 4) : (tetrahedron q 0) ^ 2 + (tetrahedron q 1) ^ 2 + (tetrahedron q 2) ^ 2 = 1 := by
  have h3 : (√3)⁻¹ ^ 2 = (3 : ℝ)⁻¹ := by rw [inv_pow, Real.sq_sqrt (by norm_num)]
  fin_cases q <;> simp [tetrahedron, h3] <;> norm_num

theorem cart2sph_unit (x y z : ℝ) (h : x ^ 2 + y ^ 2 + z ^ 2 = 1) :
    (cart2sph x y z false false).2.1 ∈ Set.Icc 0 π ∧
      dirVec (cart2sph x y z false false).1 (cart2sph x y z false false).2.1 = ![x, y, z] := by
  have := dirVec_vec2dir ![x, y, z] (by simp [dotProduct, Fin.sum_univ_three]; linarith)
  exact this

/-- The Gram matrix of the first-order harmonics at the corners of a tetrahedron. -/
theorem tetra_gram (azi zen : Fin 4 → ℝ) (hz : ∀ q, zen q ∈ Set.Icc 0 π) (h : ∀ q, dirVec (azi q) (zen q) = tetrahedron q) :
    (shMat 1 azi zen : Matrix (Fin 4) (Fin 4) ℝ).transpose * (shMat 1 azi zen : Matrix (Fin 4) (Fin 4) ℝ)
      = (1 / π : ℝ) • (1 : Matrix (Fin 4) (Fin 4) ℝ) := by
  have h3 : √3 * √3 = (3 : ℝ) := Real.mul_self_sqrt (by norm_num)
  have h3' : √(3 : ℝ) ≠ 0 := by positivity
  have h4 : √(4 * π) * √(4 * π) = 4 * π := Real.mul_self_sqrt (by positivity)
  have h4' : √(4 * π) ≠ 0 := by positivity
  have hpi : π ≠ 0 := pi_ne_zero
  set g := √(4 * π) with hg
  have hv : ∀ q, ∀ k : Fin 4, (shMat 1 azi zen : Matrix (Fin 4) (Fin 4) ℝ) q k
      = 1 / g * ![1, √3 * tetrahedron q 1, √3 * tetrahedron q 2, √3 * tetrahedron q 0] k := by
    intro q k
    obtain ⟨e0, e1, e2, e3⟩ := shVec_first (azi q) (zen q) (hz q)
    have hx : cos (azi q) * sin (zen q) = tetrahedron q 0 := by rw [← h q]; rfl
    have hy : sin (azi q) * sin (zen q) = tetrahedron q 1 := by rw [← h q]; rfl
    have hz' : cos (zen q) = tetrahedron q 2 := by rw [← h q]; rfl
    rw [hx, ← hg] at e3; rw [hy, ← hg] at e1; rw [hz', ← hg] at e2; rw [← hg] at e0
    fin_cases k
    · exact e0.trans (by simp)
    · exact e1.trans (by simp; ring)
    · exact e2.trans (by simp; ring)
    · exact e3.trans (by simp; ring)
  have hvals : ∀ q : Fin 4, ![1, √3 * tetrahedron q 1, √3 * tetrahedron q 2, √3 * tetrahedron q 0]
      = (!![1, 1, 1, 1; 1, -1, -1, 1; 1, 1, -1, -1; 1, -1, 1, -1] : Matrix (Fin 4) (Fin 4) ℝ) q := by
    intro q
    funext k
    fin_cases q <;> fin_cases k <;> simp [tetrahedron, h3']
  have hY : (shMat 1 azi zen : Matrix (Fin 4) (Fin 4) ℝ)
      = (1 / g) • (!![1, 1, 1, 1; 1, -1, -1, 1; 1, 1, -1, -1; 1, -1, 1, -1] : Matrix (Fin 4) (Fin 4) ℝ) := by
    ext q k
    rw [hv, hvals]; rfl
  rw [hY, Matrix.transpose_smul, Matrix.smul_mul, Matrix.mul_smul, smul_smul]
  have hgg : 1 / g * (1 / g) = 1 / (4 * π) := by rw [← h4]; field_simp
  rw [hgg]
  ext i j
  fin_cases i <;> fin_cases j <;>
    simp [Matrix.mul_apply, Fin.sum_univ_four] <;> field_simp <;> norm_num

theorem inverseSht_none {K S Q : ℕ} (F : Matrix (Fin K) (Fin S) ℝ) (azi zen : Fin Q → ℝ) (N : ℕ) (hN : shOrder K = N)
    (h : (N + 1) ^ 2 ≤ K) :
    inverseSht F azi zen none = .ok (shMat N azi zen * F.submatrix (Fin.castLE h) id) := by
  have hK : K ≠ 0 := by have := sq_pos' N; omega
  unfold inverseSht
  rw [if_neg (fun h => hK h.2)]
  have hM : (shOrder K).toNat = N := by rw [hN]; simp
  generalize (shOrder K).toNat = M at hM
  subst hM
  exact dif_pos h

theorem soundfield_tetra (S : ℕ) (F : Matrix (Fin 4) (Fin S) ℝ) (w : Option ℝ) (azi zen : Fin 4 → ℝ)
    (hz : ∀ q, zen q ∈ Set.Icc 0 π) (h : ∀ q, dirVec (azi q) (zen q) = tetrahedron q) :
    (inverseSht F azi zen none).bind (soundfieldToB · w) = shToB ⟨4, S, F⟩ w := by
  have hN : shOrder 4 = (1 : ℕ) := C11_order_square 1
  have hinv : inverseSht F azi zen none = .ok ((shMat 1 azi zen : Matrix (Fin 4) (Fin 4) ℝ) * F) :=
    inverseSht_none F azi zen 1 hN (by norm_num)
  rw [hinv]
  show soundfieldToB _ w = _
  unfold soundfieldToB sht
  dsimp only
  set dir := fun q : Fin 4 => cart2sph (tetrahedron q 0) (tetrahedron q 1) (tetrahedron q 2) false false
  have hdir : ∀ q, (dir q).2.1 ∈ Set.Icc 0 π ∧ dirVec (dir q).1 (dir q).2.1 = tetrahedron q := by
    intro q
    obtain ⟨h1, h2⟩ := cart2sph_unit _ _ _ (tetra_unit q)
    refine ⟨h1, h2.trans ?_⟩
    ext i; fin_cases i <;> rfl
  have hYY : (shMat 1 (fun q => (dir q).1) (fun q => (dir q).2.1) : Matrix (Fin 4) (Fin 4) ℝ) = shMat 1 azi zen := by
    funext q k
    show shVec 1 _ _ k = shVec 1 _ _ k
    unfold shVec
    rw [realSH_dir _ _ _ _ (hdir q).1, realSH_dir _ _ _ _ (hz q), (hdir q).2, h q]
  have hgram := tetra_gram azi zen hz h
  have : (((4 * π / ((4 : ℕ) : ℝ)) • (shMat 1 azi zen : Matrix (Fin 4) (Fin 4) ℝ)).transpose
      * ((shMat 1 azi zen : Matrix (Fin 4) (Fin 4) ℝ) * F)) = F := by
    rw [Matrix.transpose_smul, Matrix.smul_mul, ← Matrix.mul_assoc, hgram, Matrix.smul_mul, Matrix.one_mul, smul_smul]
    have : 4 * π / ((4 : ℕ) : ℝ) * (1 / π) = 1 := by
      have := pi_ne_zero; push_cast; field_simp
    rw [this, one_smul]
  have h2 := congrArg (fun G : Matrix (Fin 4) (Fin S) ℝ => shToB ⟨4, S, G⟩ w) this
  refine Eq.trans ?_ h2
  rw [← hYY]
  rfl

/-- The capsules of a tetrahedral microphone (not normalised): front left up, front right down, back left down, back right up. -/
def capsule : Fin 4 → Fin 3 → ℝ := ![![1, 1, 1], ![1, -1, -1], ![-1, 1, -1], ![-1, -1, 1]]

theorem tetrahedron_eq (q : Fin 4) : tetrahedron q = fun c => capsule q c / √3 := by
  funext c
  unfold tetrahedron capsule
  fin_cases q <;> fin_cases c <;> simp [Matrix.smul_apply] <;> ring

/-- C15: four capsules at the corners of the tetrahedron — front left up, front right down, back left down, back right up — recover every first-order field:
`soundfield_to_b` of the samples of the field with coefficients `F` is the B-format of `F`. -/
theorem C15_soundfield (S : ℕ) (F : Matrix (Fin 4) (Fin S) ℝ) (w : Option ℝ) (azi zen : Fin 4 → ℝ)
    (hz : ∀ q, zen q ∈ Set.Icc 0 π) (h : ∀ q, dirVec (azi q) (zen q) = fun c => capsule q c / √3) :
    (inverseSht F azi zen none).bind (soundfieldToB · w) = shToB ⟨4, S, F⟩ w :=
  soundfield_tetra S F w azi zen hz fun q => (h q).trans (tetrahedron_eq q).symm

/-- C15: `platonic_solid` returns these directions for the names `'tetra'` and `'tetrahedron'`: unit vectors with equal angles of -1/3 that integrate all polynomials
of degree two; any other name raises `UnboundLocalError`. -/
theorem C15_solid (shape : String) :
    (shape = "tetra" ∨ shape = "tetrahedron" → ∃ u, platonicSolid shape = .ok u ∧ (∀ q c, u q c = capsule q c / √3) ∧
      (∀ q r, ∑ c, u q c * u r c = if q = r then 1 else -1 / 3) ∧ (∀ c, ∑ q, u q c = 0) ∧ ∀ c d, (∑ q, u q c * u q d) / 4 = if c = d then 1 / 3 else 0) ∧
    (shape ≠ "tetra" → shape ≠ "tetrahedron" → platonicSolid shape = .error .unboundLocalError) := by
  have h3 : √3 * √3 = 3 := mul_self_sqrt (by norm_num)
  have h0 : √3 ≠ 0 := by positivity
  refine ⟨fun h => ⟨tetrahedron, ?_, fun q c => by rw [tetrahedron_eq], fun q r => ?_, fun c => ?_, fun c d => ?_⟩, fun h1 h2 => ?_⟩
  · unfold platonicSolid
    rw [if_pos (by rcases h with rfl | rfl <;> simp)]
  · simp only [tetrahedron_eq, Fin.sum_univ_three, div_mul_div_comm, h3]
    fin_cases q <;> fin_cases r <;> simp [capsule] <;> norm_num
  · simp only [tetrahedron_eq, Fin.sum_univ_four]
    fin_cases c <;> simp [capsule] <;> ring
  · simp only [tetrahedron_eq, Fin.sum_univ_four, div_mul_div_comm, h3]
    fin_cases c <;> fin_cases d <;> simp [capsule] <;> norm_num
  · unfold platonicSolid
    rw [if_neg (by simp [h1, h2])]

example : platonicSolid "cube" = .error .unboundLocalError := (C15_solid "cube").2 (by decide) (by decide)

/-- Directions as in `C15_soundfield` exist: those `cart2sph` computes. -/
example : ∃ azi zen : Fin 4 → ℝ, (∀ q, zen q ∈ Set.Icc 0 π) ∧ ∀ q, dirVec (azi q) (zen q) = fun c => capsule q c / √3 := by
  simp only [← tetrahedron_eq]
  refine ⟨fun q => (cart2sph (tetrahedron q 0) (tetrahedron q 1) (tetrahedron q 2) false false).1,
    fun q => (cart2sph (tetrahedron q 0) (tetrahedron q 1) (tetrahedron q 2) false false).2.1,
    fun q => (cart2sph_unit _ _ _ (tetra_unit q)).1, fun q => ((cart2sph_unit _ _ _ (tetra_unit q)).2.trans ?_)⟩
  ext i; fin_cases i <;> rfl

end Verif.Sph
