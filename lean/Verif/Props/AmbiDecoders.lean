import Verif.Props.SphDesigns
import Verif.Props.VbapHistory
import Verif.Proofs.Directions

/-!
C42 (EPAD), C43 (MAD and SAD), C44 (nearest loudspeaker).
-/

namespace Verif.Props
open Real Verif.Sph Verif.Utils Verif.Decoder

/-! ### Input order -/

theorem shOrder_ge (K N : ℕ) : (N : ℤ) ≤ shOrder K ↔ (N + 1) ^ 2 ≤ K := by
  rcases Nat.eq_zero_or_pos K with rfl | hK
  · rw [(C11_order_iff 0 0).2]; constructor
    · intro h; omega
    · intro h; have : 0 < (N + 1) ^ 2 := by positivity
      omega
  · have hs : 1 ≤ Nat.sqrt K := Nat.le_sqrt.2 (by omega)
    have h : shOrder K = ((Nat.sqrt K - 1 : ℕ) : ℤ) := by
      refine ((C11_order_iff K _).1).2 ⟨?_, ?_⟩
      · rw [Nat.sub_add_cancel hs]; exact Nat.sqrt_le' K
      · rw [show Nat.sqrt K - 1 + 2 = Nat.sqrt K + 1 by omega]; exact Nat.lt_succ_sqrt' K
    rw [h]
    have : (N + 1) ^ 2 ≤ K ↔ N + 1 ≤ Nat.sqrt K := by rw [Nat.le_sqrt, pow_two]
    rw [this]; omega

theorem applyTruncated_ok {K S R N : ℕ} (D : Matrix (Fin R) (Fin ((N + 1) ^ 2)) ℝ) (F : Matrix (Fin K) (Fin S) ℝ)
    (h : (N + 1) ^ 2 ≤ K) : applyTruncated D F = .ok (D * F.submatrix (Fin.castLE h) id) := by
  unfold applyTruncated
  rw [if_neg (not_not.2 ((shOrder_ge K N).2 h)), dif_pos h]

theorem applyTruncated_err {K S R N : ℕ} (D : Matrix (Fin R) (Fin ((N + 1) ^ 2)) ℝ) (F : Matrix (Fin K) (Fin S) ℝ)
    (h : K < (N + 1) ^ 2) : applyTruncated D F = .error .assertionError := by
  unfold applyTruncated
  rw [if_pos fun h' => by have := (shOrder_ge K N).1 h'; omega]

/-! ### C42 -/

theorem npEye_gram {L K : ℕ} (h : K ≤ L) : (npEye L K).transpose * npEye L K = 1 := by
  ext i j
  rw [Matrix.mul_apply, Matrix.one_apply]
  rw [Finset.sum_eq_single (Fin.castLE h i)]
  · simp only [npEye, Matrix.transpose_apply, Fin.val_castLE, if_true, one_mul, Fin.ext_iff]
  · intro l _ hl
    simp only [npEye, Matrix.transpose_apply]
    rw [if_neg, zero_mul]
    intro h'; exact hl (Fin.ext h')
  · simp

theorem energy_eq_of_gram {m n S : ℕ} {D : Matrix (Fin m) (Fin n) ℝ} {g : ℝ} (hD : D.transpose * D = g • 1)
    (F : Matrix (Fin n) (Fin S) ℝ) (t : Fin S) : ∑ l, (D * F) l t ^ 2 = g * ∑ q, F q t ^ 2 := by
  have h : (F.transpose * (D.transpose * D) * F) t t = g * ∑ q, F q t ^ 2 := by
    rw [hD, Matrix.mul_smul, Matrix.smul_mul, Matrix.mul_one, Matrix.smul_apply, Matrix.mul_apply, smul_eq_mul]
    simp only [Matrix.transpose_apply, pow_two]
  rw [← h, ← Matrix.mul_assoc, ← Matrix.transpose_mul, Matrix.mul_assoc, Matrix.mul_apply]
  simp only [Matrix.transpose_apply, pow_two]

theorem epad_eq {L K S : ℕ} (lstsq : Mat3 → Mat3)
    (svd : {m n : ℕ} → Matrix (Fin m) (Fin n) ℝ → Matrix (Fin m) (Fin m) ℝ × Matrix (Fin n) (Fin n) ℝ)
    (F : Matrix (Fin K) (Fin S) ℝ) (h : Hull L) (No : Option ℕ) (N : ℕ) (hN : decodingOrder lstsq h No = .ok N) :
    epad lstsq svd F h No = applyTruncated (√((L : ℝ) / ((N : ℝ) + 1) ^ 2) • (√(4 * π / L) •
      ((svd (shAt N h.points)).1 * npEye L ((N + 1) ^ 2) * (svd (shAt N h.points)).2))) F := by
  unfold epad
  rw [hN]; rfl

theorem mad_eq {L K S : ℕ} (lstsq : Mat3 → Mat3)
    (pinv : {m n : ℕ} → Matrix (Fin m) (Fin n) ℝ → Matrix (Fin n) (Fin m) ℝ)
    (F : Matrix (Fin K) (Fin S) ℝ) (h : Hull L) (No : Option ℕ) (N : ℕ) (hN : decodingOrder lstsq h No = .ok N) :
    mad lstsq pinv F h No = applyTruncated (√((L : ℝ) / ((N : ℝ) + 1) ^ 2) • (pinv (shAt N h.points)).transpose) F := by
  unfold mad
  rw [hN]; rfl

theorem sad_eq {L K S : ℕ} (lstsq : Mat3 → Mat3)
    (F : Matrix (Fin K) (Fin S) ℝ) (h : Hull L) (No : Option ℕ) (N : ℕ) (hN : decodingOrder lstsq h No = .ok N) :
    sad lstsq F h No = applyTruncated (√(4 * π / L) • (√(4 * π / ((N : ℝ) + 1) ^ 2) • shAt N h.points)) F := by
  unfold sad
  rw [hN]; rfl

/-- C42: for at least `(N+1)²` loudspeakers, at every sample the energy of the `epad` output is `4π/(N+1)²` times the energy of the
channels up to order `N` of the input, for every layout. -/
theorem C42_energy {L K S : ℕ} (lstsq : Mat3 → Mat3)
    (svd : {m n : ℕ} → Matrix (Fin m) (Fin n) ℝ → Matrix (Fin m) (Fin m) ℝ × Matrix (Fin n) (Fin n) ℝ)
    (hsvd : ∀ {m n : ℕ} (A : Matrix (Fin m) (Fin n) ℝ), IsSvd A (svd A).1 (svd A).2)
    (F : Matrix (Fin K) (Fin S) ℝ) (h : Hull L) (No : Option ℕ) (N : ℕ) (hN : decodingOrder lstsq h No = .ok N)
    (hL : (N + 1) ^ 2 ≤ L) (hK : (N + 1) ^ 2 ≤ K) :
    ∃ out, epad lstsq svd F h No = .ok out ∧
      ∀ t, ∑ l, out l t ^ 2 = 4 * π / ((N : ℝ) + 1) ^ 2 * ∑ q : Fin ((N + 1) ^ 2), F (Fin.castLE hK q) t ^ 2 := by
  have hpos : 0 < L := lt_of_lt_of_le (by positivity) hL
  refine ⟨_, (epad_eq lstsq svd F h No N hN).trans (applyTruncated_ok _ F hK), fun t => ?_⟩
  · refine (energy_eq_of_gram (g := 4 * π / ((N : ℝ) + 1) ^ 2) ?_ _ t).trans rfl
    have h1 := hsvd (shAt N h.points)
    have hg : ((svd (shAt N h.points)).1 * npEye L ((N + 1) ^ 2) * (svd (shAt N h.points)).2).transpose
        * ((svd (shAt N h.points)).1 * npEye L ((N + 1) ^ 2) * (svd (shAt N h.points)).2) = 1 := by
      generalize (svd (shAt N h.points)).1 = U at *
      generalize (svd (shAt N h.points)).2 = V at *
      rw [Matrix.transpose_mul, Matrix.transpose_mul]
      calc V.transpose * ((npEye L ((N + 1) ^ 2)).transpose * U.transpose) * (U * npEye L ((N + 1) ^ 2) * V)
          = V.transpose * ((npEye L ((N + 1) ^ 2)).transpose * (U.transpose * U) * npEye L ((N + 1) ^ 2)) * V := by
            simp only [Matrix.mul_assoc]
        _ = 1 := by rw [h1.u, Matrix.mul_one, npEye_gram hL, Matrix.mul_one, h1.vh]
    rw [smul_smul, Matrix.transpose_smul, Matrix.smul_mul, Matrix.mul_smul, hg, smul_smul]
    congr 1
    rw [← Real.sqrt_mul (by positivity), Real.mul_self_sqrt (by positivity)]
    have : (L : ℝ) ≠ 0 := by positivity
    field_simp

/-- C42: a plane wave from any direction is rendered with its own energy, whatever the layout. -/
theorem C42_plane_wave {L S : ℕ} (lstsq : Mat3 → Mat3)
    (svd : {m n : ℕ} → Matrix (Fin m) (Fin n) ℝ → Matrix (Fin m) (Fin m) ℝ × Matrix (Fin n) (Fin n) ℝ)
    (hsvd : ∀ {m n : ℕ} (A : Matrix (Fin m) (Fin n) ℝ), IsSvd A (svd A).1 (svd A).2)
    (sig : Fin S → ℝ) (azi zen : ℝ) (hz : zen ∈ Set.Icc 0 π) (N : ℕ) (h : Hull L) (hL : (N + 1) ^ 2 ≤ L) :
    ∃ out, epad lstsq svd (srcToSh (fun _ : Fin 1 => sig) (fun _ => azi) (fun _ => zen) N) h (some N) = .ok out ∧
      ∀ t, ∑ l, out l t ^ 2 = sig t ^ 2 := by
  obtain ⟨out, ho, he⟩ := C42_energy lstsq svd hsvd (srcToSh (fun _ : Fin 1 => sig) (fun _ => azi) (fun _ => zen) N) h (some N) N rfl
    hL le_rfl
  refine ⟨out, ho, fun t => ?_⟩
  rw [he t]
  have h1 : ∀ q : Fin ((N + 1) ^ 2), srcToSh (fun _ : Fin 1 => sig) (fun _ => azi) (fun _ => zen) N (Fin.castLE le_rfl q) t ^ 2
      = sig t ^ 2 * (shVec N azi zen q * shVec N azi zen q) := by
    intro q
    have h0 : srcToSh (fun _ : Fin 1 => sig) (fun _ => azi) (fun _ => zen) N (Fin.castLE le_rfl q) t = shVec N azi zen q * sig t := by
      refine (Matrix.mul_apply).trans ?_
      rw [Fin.sum_univ_one]; rfl
    rw [h0]; ring
  rw [Finset.sum_congr rfl fun q _ => h1 q, ← Finset.mul_sum]
  have h2 := C18_row_norm N azi zen hz
  unfold dotProduct at h2
  rw [h2]
  have : ((N : ℝ) + 1) ≠ 0 := by positivity
  have := pi_ne_zero
  field_simp

/-- `C42_plane_wave`: a frontal plane wave of order 1 on the six loudspeakers of the octahedron. -/
example (sig : Fin 3 → ℝ) : ∃ (svd : {m n : ℕ} → Matrix (Fin m) (Fin n) ℝ → Matrix (Fin m) (Fin m) ℝ × Matrix (Fin n) (Fin n) ℝ) (out : _),
    epad id svd (srcToSh (fun _ : Fin 1 => sig) (fun _ => 0) (fun _ => π / 2) 1) Oct.hull (some 1) = .ok out ∧ ∀ t, ∑ l, out l t ^ 2 = sig t ^ 2 := by
  choose U V h using fun (m n : ℕ) (A : Matrix (Fin m) (Fin n) ℝ) => exists_svd A
  obtain ⟨out, h1, h2⟩ := C42_plane_wave id (fun {m n} A => (U m n A, V m n A)) (fun A => h _ _ A) sig 0 (π / 2)
    ⟨by positivity, by linarith [pi_pos]⟩ 1 Oct.hull (by norm_num)
  exact ⟨_, out, h1, h2⟩

/-- C42: inputs of lower order are rejected. -/
theorem C42_reject {L K S : ℕ} (lstsq : Mat3 → Mat3)
    (svd : {m n : ℕ} → Matrix (Fin m) (Fin n) ℝ → Matrix (Fin m) (Fin m) ℝ × Matrix (Fin n) (Fin n) ℝ)
    (F : Matrix (Fin K) (Fin S) ℝ) (h : Hull L) (N : ℕ) (hK : K < (N + 1) ^ 2) :
    epad lstsq svd F h (some N) = .error .assertionError :=
  applyTruncated_err _ F hK

/-- C42 on the octahedron at order 1 (six loudspeakers, four channels). -/
example (F : Matrix (Fin 4) (Fin 3) ℝ) : ∃ (svd : {m n : ℕ} → Matrix (Fin m) (Fin n) ℝ → Matrix (Fin m) (Fin m) ℝ × Matrix (Fin n) (Fin n) ℝ)
    (out : _), epad id svd F Oct.hull (some 1) = .ok out ∧ ∀ t, ∑ l, out l t ^ 2 = π * ∑ q, F q t ^ 2 := by
  choose U V h using fun (m n : ℕ) (A : Matrix (Fin m) (Fin n) ℝ) => exists_svd A
  obtain ⟨out, h1, h2⟩ := C42_energy id (fun {m n} A => (U m n A, V m n A)) (fun A => h _ _ A) F Oct.hull (some 1) 1 rfl (by norm_num)
    (by norm_num)
  refine ⟨_, out, h1, fun t => ?_⟩
  rw [h2 t]
  norm_num
  rfl

/-! ### C43 -/

/-- C43: with full column rank, encoding the `mad` loudspeaker signals at the loudspeaker directions returns the truncated input,
scaled by `√L/(N+1)`. -/
theorem C43_mad {L K S : ℕ} (lstsq : Mat3 → Mat3)
    (pinv : {m n : ℕ} → Matrix (Fin m) (Fin n) ℝ → Matrix (Fin n) (Fin m) ℝ)
    (hpinv : ∀ {m n : ℕ} (A : Matrix (Fin m) (Fin n) ℝ), IsPinv A (pinv A)) (F : Matrix (Fin K) (Fin S) ℝ) (h : Hull L)
    (No : Option ℕ) (N : ℕ) (hN : decodingOrder lstsq h No = .ok N) (hK : (N + 1) ^ 2 ≤ K)
    (hrank : LinearIndependent ℝ (shMat N (fun l => (dirOf (h.points l)).1) (fun l => (dirOf (h.points l)).2)).col) :
    ∃ out, mad lstsq pinv F h No = .ok out ∧
      ∀ q t, srcToSh out (fun l => (dirOf (h.points l)).1) (fun l => (dirOf (h.points l)).2) N q t
        = √L / (N + 1) * F (Fin.castLE hK q) t := by
  refine ⟨_, (mad_eq lstsq pinv F h No N hN).trans (applyTruncated_ok _ F hK), fun q t => ?_⟩
  · have hl := pinv_left (hpinv (shAt N h.points)) hrank
    have h2 : (shAt N h.points).transpose * (pinv (shAt N h.points)).transpose = 1 := by
      rw [← Matrix.transpose_mul, hl, Matrix.transpose_one]
    unfold srcToSh
    change (HMul.hMul (shAt N h.points).transpose _ : Matrix _ _ ℝ) q t = _
    rw [Matrix.smul_mul, Matrix.mul_smul, ← Matrix.mul_assoc, h2, Matrix.one_mul, Matrix.smul_apply, smul_eq_mul,
      Real.sqrt_div (by positivity), Real.sqrt_sq (by positivity)]
    rfl

/-- C43: on a t-design of degree `2N`, `sad` re-encodes with the same constant. -/
theorem C43_sad {L K S t : ℕ} (lstsq : Mat3 → Mat3) (F : Matrix (Fin K) (Fin S) ℝ) (h : Hull L)
    (No : Option ℕ) (N : ℕ) (hN : decodingOrder lstsq h No = .ok N) (hK : (N + 1) ^ 2 ≤ K)
    (hd : IsTDesign t (fun l => (dirOf (h.points l)).1) (fun l => (dirOf (h.points l)).2)) (ht : 2 * N ≤ t) :
    ∃ out, sad lstsq F h No = .ok out ∧
      ∀ q t, srcToSh out (fun l => (dirOf (h.points l)).1) (fun l => (dirOf (h.points l)).2) N q t
        = √L / (N + 1) * F (Fin.castLE hK q) t := by
  refine ⟨_, (sad_eq lstsq F h No N hN).trans (applyTruncated_ok _ F hK), fun q t => ?_⟩
  · have hg : (shAt N h.points).transpose * shAt N h.points = _ := design_gram hd ht
    unfold srcToSh
    change (HMul.hMul (shAt N h.points).transpose _ : Matrix _ _ ℝ) q t = _
    have hL : (0 : ℝ) < L := by exact_mod_cast hd.pos
    rw [smul_smul, Matrix.smul_mul, Matrix.mul_smul, ← Matrix.mul_assoc, hg, Matrix.smul_mul, Matrix.one_mul, smul_smul, Matrix.smul_apply,
      smul_eq_mul]
    show _ * F (Fin.castLE hK q) t = _
    congr 1
    have h1 : √(4 * π / L) * √(4 * π / ((N : ℝ) + 1) ^ 2) = 4 * π / (√L * (N + 1)) := by
      rw [Real.sqrt_div (by positivity), Real.sqrt_div (by positivity), Real.sqrt_sq (by positivity), div_mul_div_comm,
        Real.mul_self_sqrt (by positivity)]
    rw [h1]
    have h2 : √(L : ℝ) ≠ 0 := by positivity
    have h3 : (√(L : ℝ)) ^ 2 = L := Real.sq_sqrt hL.le
    have := pi_ne_zero
    field_simp
    rw [h3]

theorem design_pinv {m n : ℕ} {A : Matrix (Fin m) (Fin n) ℝ} {P : Matrix (Fin n) (Fin m) ℝ} (h : IsPinv A P) {g : ℝ} (hg : g ≠ 0)
    (hA : A.transpose * A = g • 1) : P = g⁻¹ • A.transpose := by
  have hrank : LinearIndependent ℝ A.col := by
    rw [← Matrix.mulVec_injective_iff]
    intro x y hxy
    have h2 : ∀ v, A.transpose.mulVec (A.mulVec v) = g • v := fun v => by
      rw [Matrix.mulVec_mulVec, hA, Matrix.smul_mulVec, Matrix.one_mulVec]
    have h3 := h2 x
    rw [hxy, h2 y] at h3
    exact (smul_right_injective _ hg h3).symm
  have hl := pinv_left h hrank
  have h1 : A.transpose * A * P = A.transpose := by
    rw [Matrix.mul_assoc, ← h.ap, Matrix.transpose_mul, ← Matrix.mul_assoc, ← Matrix.transpose_mul, hl, Matrix.transpose_one,
      Matrix.one_mul] <;> skip
  rw [hA, Matrix.smul_mul, Matrix.one_mul] at h1
  rw [← h1, smul_smul, inv_mul_cancel₀ hg, one_smul]

/-- C43: on a t-design of degree `2N` the two decoders agree (the constant factor between them is one). -/
theorem C43_sad_eq_mad {L K S t : ℕ} (lstsq : Mat3 → Mat3)
    (pinv : {m n : ℕ} → Matrix (Fin m) (Fin n) ℝ → Matrix (Fin n) (Fin m) ℝ)
    (hpinv : ∀ {m n : ℕ} (A : Matrix (Fin m) (Fin n) ℝ), IsPinv A (pinv A)) (F : Matrix (Fin K) (Fin S) ℝ) (h : Hull L)
    (No : Option ℕ) (N : ℕ) (hN : decodingOrder lstsq h No = .ok N)
    (hd : IsTDesign t (fun l => (dirOf (h.points l)).1) (fun l => (dirOf (h.points l)).2)) (ht : 2 * N ≤ t) :
    sad lstsq F h No = mad lstsq pinv F h No := by
  have hL : (0 : ℝ) < L := by exact_mod_cast hd.pos
  have hg : (shAt N h.points).transpose * shAt N h.points = _ := design_gram hd ht
  have hp := design_pinv (hpinv (shAt N h.points)) (g := (L : ℝ) / (4 * π)) (by positivity) hg
  rw [sad_eq lstsq F h No N hN, mad_eq lstsq pinv F h No N hN]
  congr 1
  rw [hp, Matrix.transpose_smul, Matrix.transpose_transpose, smul_smul, smul_smul]
  congr 1
  rw [Real.sqrt_div (by positivity), Real.sqrt_div (by positivity), Real.sqrt_div (by positivity), Real.sqrt_sq (by positivity),
    div_mul_div_comm, Real.mul_self_sqrt (by positivity)]
  have h2 : √(L : ℝ) ≠ 0 := by positivity
  have h3 : (√(L : ℝ)) ^ 2 = L := Real.sq_sqrt hL.le
  have := pi_ne_zero
  field_simp
  rw [h3]

/-- C43: channels above the decoding order have no effect on `sad` and `mad`. -/
theorem C43_truncates {L K K' S : ℕ} (lstsq : Mat3 → Mat3)
    (pinv : {m n : ℕ} → Matrix (Fin m) (Fin n) ℝ → Matrix (Fin n) (Fin m) ℝ) (F : Matrix (Fin K) (Fin S) ℝ)
    (F' : Matrix (Fin K') (Fin S) ℝ) (h : Hull L) (No : Option ℕ) (N : ℕ) (hN : decodingOrder lstsq h No = .ok N)
    (hK : (N + 1) ^ 2 ≤ K) (hK' : (N + 1) ^ 2 ≤ K')
    (heq : ∀ (q : Fin ((N + 1) ^ 2)) t, F (Fin.castLE hK q) t = F' (Fin.castLE hK' q) t) :
    sad lstsq F h No = sad lstsq F' h No ∧ mad lstsq pinv F h No = mad lstsq pinv F' h No := by
  have hs : F.submatrix (Fin.castLE hK) id = F'.submatrix (Fin.castLE hK') id := by ext q t; exact heq q t
  rw [sad_eq lstsq F h No N hN, sad_eq lstsq F' h No N hN, mad_eq lstsq pinv F h No N hN, mad_eq lstsq pinv F' h No N hN]
  simp only [applyTruncated_ok _ F hK, applyTruncated_ok _ F' hK', hs, and_self]

/-- `C43_truncates`: a second-order input decoded at order 1 gives the same as its first four channels. -/
example (F : Matrix (Fin 9) (Fin 2) ℝ) (h : Hull 8) (pinv : {m n : ℕ} → Matrix (Fin m) (Fin n) ℝ → Matrix (Fin n) (Fin m) ℝ) :
    sad id F h (some 1) = sad id (fun (q : Fin 4) t => F (Fin.castLE (by norm_num) q) t) h (some 1) :=
  (C43_truncates id pinv F (fun (q : Fin 4) t => F (Fin.castLE (by norm_num) q) t) h (some 1) 1 rfl (by norm_num) le_rfl (fun _ _ => rfl)).1

/-- C43: inputs of lower order are rejected, with `AssertionError`. -/
theorem C43_reject {L K S : ℕ} (lstsq : Mat3 → Mat3)
    (pinv : {m n : ℕ} → Matrix (Fin m) (Fin n) ℝ → Matrix (Fin n) (Fin m) ℝ) (F : Matrix (Fin K) (Fin S) ℝ)
    (h : Hull L) (No : Option ℕ) (N : ℕ) (hN : decodingOrder lstsq h No = .ok N) (hK : K < (N + 1) ^ 2) :
    sad lstsq F h No = .error .assertionError ∧ mad lstsq pinv F h No = .error .assertionError := by
  rw [sad_eq lstsq F h No N hN, mad_eq lstsq pinv F h No N hN]
  exact ⟨applyTruncated_err _ F hK, applyTruncated_err _ F hK⟩

/-- C43: without `N_sph` the three decoders use the characteristic order of the setup, or raise what computing it raises. -/
theorem C43_default_order {L K S : ℕ} (lstsq : Mat3 → Mat3)
    (pinv : {m n : ℕ} → Matrix (Fin m) (Fin n) ℝ → Matrix (Fin n) (Fin m) ℝ)
    (svd : {m n : ℕ} → Matrix (Fin m) (Fin n) ℝ → Matrix (Fin m) (Fin m) ℝ × Matrix (Fin n) (Fin n) ℝ)
    (F : Matrix (Fin K) (Fin S) ℝ) (h : Hull L) (h0 : h.charOrder ≠ some 0) :
    (∀ N : ℕ, getCharacteristicOrder lstsq h = .ok N → sad lstsq F h none = sad lstsq F h (some N) ∧
      mad lstsq pinv F h none = mad lstsq pinv F h (some N) ∧ epad lstsq svd F h none = epad lstsq svd F h (some N)) ∧
    ∀ e, getCharacteristicOrder lstsq h = .error e → sad lstsq F h none = .error e ∧ mad lstsq pinv F h none = .error e ∧
      epad lstsq svd F h none = .error e := by
  have key : decodingOrder lstsq h none = getCharacteristicOrder lstsq h := by
    unfold decodingOrder getCharacteristicOrder
    rcases hc : h.charOrder with _ | _ | n
    · rfl
    · exact absurd hc h0
    · rfl
  constructor
  · intro N hN
    have hd : decodingOrder lstsq h none = decodingOrder lstsq h (some N) := by rw [key, hN]; rfl
    unfold sad mad epad
    rw [hd]
    exact ⟨rfl, rfl, rfl⟩
  · intro e he
    rw [he] at key
    unfold sad mad epad
    rw [key]
    exact ⟨rfl, rfl, rfl⟩

/-- C43 on a setup whose order 3 has been stored by `ambisonics_setup`: `sad` decodes at order 3. -/
example (h : Hull 8) (F : Matrix (Fin 16) (Fin 2) ℝ) : sad id F { h with charOrder := some 3 } none = sad id F { h with charOrder := some 3 } (some 3) :=
  ((C43_default_order id (fun A => A.transpose) (fun _ => (0, 0)) F { h with charOrder := some 3 } (by simp)).1 3 rfl).1

/-- C43 on the cube at order 1: the two decoders agree, re-encode the sound field, and reject an input of order 0. -/
example (F : Matrix (Fin 4) (Fin 3) ℝ) (G : Matrix (Fin 1) (Fin 3) ℝ) :
    ∃ (h : Hull 8) (pinv : {m n : ℕ} → Matrix (Fin m) (Fin n) ℝ → Matrix (Fin n) (Fin m) ℝ),
      (∃ out, mad id pinv F h (some 1) = .ok out ∧ ∀ q t, srcToSh out (fun l => (dirOf (h.points l)).1)
        (fun l => (dirOf (h.points l)).2) 1 q t = √8 / 2 * F (Fin.castLE le_rfl q) t) ∧
      sad id F h (some 1) = mad id pinv F h (some 1) ∧ sad id G h (some 1) = .error .assertionError := by
  obtain ⟨azi, zen, hd⟩ := cube_design
  choose P hP using fun (m n : ℕ) (A : Matrix (Fin m) (Fin n) ℝ) => exists_pinv A
  let h : Hull 8 := {
    points := fun l => dirVec (azi l) (zen l), listener := 0, d := fun _ => 1, a := 1, simplices := [],
    centroids := [], faceAreas := [], faceNormals := [], barycenter := 0, encloses := [], valid := [], invBase := none,
    charOrder := none }
  refine ⟨h, fun {m n} A => P m n A, ?_, ?_, ?_⟩
  · obtain ⟨out, h1, h2⟩ := C43_mad id (fun {m n} A => P m n A) (fun A => hP _ _ A) F h (some 1) 1 rfl (by norm_num)
      (design_rank (design_points hd) (by norm_num))
    refine ⟨out, h1, fun q t => ?_⟩
    rw [h2 q t]; norm_num
  · exact C43_sad_eq_mad id (fun {m n} A => P m n A) (fun A => hP _ _ A) F h (some 1) 1 rfl (design_points hd) (by norm_num)
  · exact (C43_reject id (fun {m n} A => P m n A) G h (some 1) 1 rfl (by norm_num)).1

/-! ### C44 -/

theorem argmaxAux_spec (xs : List ℝ) : ∀ (pre : List ℝ) (best : ℕ) (bv : ℝ) (_ : (pre ++ xs)[best]? = some bv) (_ : best < pre.length)
    (_ : ∀ j v, j < pre.length → (pre ++ xs)[j]? = some v → v ≤ bv) (_ : ∀ j v, j < best → (pre ++ xs)[j]? = some v → v < bv),
    ∃ v, (pre ++ xs)[argmaxAux xs pre.length best bv]? = some v ∧ (∀ w ∈ pre ++ xs, w ≤ v) ∧
      ∀ j w, j < argmaxAux xs pre.length best bv → (pre ++ xs)[j]? = some w → w < v := by
  induction xs with
  | nil =>
    intro pre best bv h1 h2 h3 h4
    simp only [List.append_nil] at *
    refine ⟨bv, h1, fun w hw => ?_, h4⟩
    obtain ⟨j, hj, rfl⟩ := List.getElem_of_mem hw
    exact h3 j _ hj (List.getElem?_eq_getElem hj)
  | cons x xs ih =>
    intro pre best bv h1 h2 h3 h4
    have hx : (pre ++ x :: xs)[pre.length]? = some x := by simp
    have e : pre ++ x :: xs = (pre ++ [x]) ++ xs := by simp
    have el : (pre ++ [x]).length = pre.length + 1 := by simp
    unfold argmaxAux
    split_ifs with hc
    · have := ih (pre ++ [x]) pre.length x (e ▸ hx) (by simp) ?_ ?_
      · rw [el, ← e] at this; exact this
      · intro j v hj hv
        rw [← e] at hv
        rw [el] at hj
        rcases Nat.lt_succ_iff_lt_or_eq.1 hj with hj | rfl
        · exact (h3 j v hj hv).trans hc.le
        · rw [hx] at hv; exact (Option.some.inj hv).ge
      · intro j v hj hv
        rw [← e] at hv
        exact lt_of_le_of_lt (h3 j v hj hv) hc
    · have := ih (pre ++ [x]) best bv (e ▸ h1) (by simp; omega) ?_ ?_
      · rw [el, ← e] at this; exact this
      · intro j v hj hv
        rw [← e] at hv
        rw [el] at hj
        rcases Nat.lt_succ_iff_lt_or_eq.1 hj with hj | rfl
        · exact h3 j v hj hv
        · rw [hx] at hv; rw [← Option.some.inj hv]; exact not_lt.1 hc
      · intro j v hj hv
        rw [← e] at hv
        exact h4 j v hj hv

/-- `np.argmax` returns the first index of the maximum. -/
theorem npArgmax_spec (l : List ℝ) (h : l ≠ []) : ∃ (i : ℕ) (v : ℝ), npArgmax l = .ok i ∧ l[i]? = some v ∧ (∀ w ∈ l, w ≤ v) ∧
    ∀ j w, j < i → l[j]? = some w → w < v := by
  match l, h with
  | x :: xs, _ =>
    obtain ⟨v, h1, h2, h3⟩ := argmaxAux_spec xs [x] 0 x rfl (by simp)
      (fun j v hj hv => by
        have : j = 0 := by simpa using hj
        subst this; exact (Option.some.inj hv).ge) (fun j v hj => by omega)
    exact ⟨_, v, rfl, h1, h2, h3⟩

theorem npArgmax_ofFn {L : ℕ} (hL : 0 < L) (f : Fin L → ℝ) : ∃ i : Fin L, npArgmax (List.ofFn f) = .ok (i : ℕ) ∧ (∀ l, f l ≤ f i) ∧
    ∀ l, l < i → f l < f i := by
  obtain ⟨i, v, h1, h2, h3, h4⟩ := npArgmax_spec (List.ofFn f) (fun h => by
    have := congrArg List.length h; simp at this; omega)
  obtain ⟨hi, hv⟩ := List.getElem?_eq_some_iff.1 h2
  have hi' : i < L := by simpa using hi
  rw [List.getElem_ofFn] at hv
  refine ⟨⟨i, hi'⟩, h1, fun l => ?_, fun l hl => ?_⟩
  · rw [hv]; exact h3 _ (List.mem_ofFn.2 ⟨l, rfl⟩)
  · rw [hv]; refine h4 l (f l) hl ?_
    rw [List.getElem?_ofFn]; simp

theorem dot_le_norms (u v : Vec3) : |u ⬝ᵥ v| ≤ norm3 u * norm3 v := by
  unfold norm3
  rw [← Real.sqrt_mul (show 0 ≤ u ⬝ᵥ u from Finset.sum_nonneg fun c _ => mul_self_nonneg _)]
  refine Real.abs_le_sqrt ?_
  simp only [dotProduct, Fin.sum_univ_three]
  nlinarith [sq_nonneg (u 0 * v 1 - u 1 * v 0), sq_nonneg (u 0 * v 2 - u 2 * v 0), sq_nonneg (u 1 * v 2 - u 2 * v 1)]

theorem cos_angle3 (u v : Vec3) (hu : 0 < norm3 u) (hv : 0 < norm3 v) :
    cos (angleBetween u v) = u ⬝ᵥ v / (norm3 u * norm3 v) := by
  have h := abs_le.1 (dot_le_norms u v)
  have hp : 0 < norm3 u * norm3 v := mul_pos hu hv
  have h1 : -1 ≤ u ⬝ᵥ v / (norm3 u * norm3 v) := by rw [le_div_iff₀ hp]; linarith [h.1]
  have h2 : u ⬝ᵥ v / (norm3 u * norm3 v) ≤ 1 := by rw [div_le_one hp]; exact h.2
  show cos (arccos (clip1 _)) = _
  unfold clip1
  rw [max_eq_left h1, min_eq_left h2, Real.cos_arccos h1 h2]

theorem angle3_mem (u v : Vec3) : angleBetween u v ∈ Set.Icc 0 π := ⟨Real.arccos_nonneg _, Real.arccos_le_pi _⟩

/-- C44: exactly one loudspeaker is active, one with the smallest angle to the source, the first such one; its gain is `d ** a`. -/
theorem C44_nearest {L : ℕ} (hL : 0 < L) (h : Hull L) (hd : ∀ l, h.d l = norm3 (h.points l)) (hpos : ∀ l, h.points l ≠ 0)
    (src : Vec3) (hs : src ≠ 0) :
    ∃ i, nearestLoudspeaker h src = .ok (Pi.single i (h.d i ^ h.a)) ∧
      (∀ l, angleBetween src (h.points i) ≤ angleBetween src (h.points l)) ∧
      ∀ l, l < i → angleBetween src (h.points i) < angleBetween src (h.points l) := by
  obtain ⟨i, h1, h2, h3⟩ := npArgmax_ofFn hL fun l => src ⬝ᵥ (fun c => h.points l c / h.d l)
  have hsn := norm3_pos hs
  have hf : ∀ l, src ⬝ᵥ (fun c => h.points l c / h.d l) = norm3 src * cos (angleBetween src (h.points l)) := by
    intro l
    have hn := norm3_pos (hpos l)
    rw [cos_angle3 _ _ hsn hn, hd l]
    simp only [dotProduct, Fin.sum_univ_three]
    field_simp
  simp only [hf] at h2 h3
  refine ⟨i, ?_, fun l => ?_, fun l hl => ?_⟩
  · unfold nearestLoudspeaker
    dsimp only
    rw [h1]
    show Except.ok _ = Except.ok _
    congr 1
    funext l
    by_cases hli : l = i
    · subst hli; simp
    · rw [if_neg (fun h => hli (Fin.ext h)), Pi.single_eq_of_ne hli]
  · refine (Real.strictAntiOn_cos.le_iff_ge (angle3_mem _ _) (angle3_mem _ _)).1 ?_
    exact le_of_mul_le_mul_left (h2 l) hsn
  · refine (Real.strictAntiOn_cos.lt_iff_gt (angle3_mem _ _) (angle3_mem _ _)).1 ?_
    exact lt_of_mul_lt_mul_left (h3 l hl) hsn.le

/-- C44: the choice does not depend on the distance of the source. -/
theorem C44_scale {L : ℕ} (h : Hull L) (hd : ∀ l, h.d l = norm3 (h.points l)) (hpos : ∀ l, h.points l ≠ 0)
    (src : Vec3) (hs : src ≠ 0) (c : ℝ) (hc : 0 < c) : nearestLoudspeaker h (c • src) = nearestLoudspeaker h src := by
  rcases Nat.eq_zero_or_pos L with rfl | hL
  · unfold nearestLoudspeaker; rfl
  · obtain ⟨i, h1, h2, h3⟩ := C44_nearest hL h hd hpos src hs
    obtain ⟨j, g1, g2, g3⟩ := C44_nearest hL h hd hpos (c • src) (smul_ne_zero hc.ne' hs)
    have hang : ∀ l, angleBetween (c • src) (h.points l) = angleBetween src (h.points l) := by
      intro l
      have hn : norm3 (c • src) = c * norm3 src := by
        unfold norm3
        rw [smul_dotProduct, dotProduct_smul, smul_eq_mul, smul_eq_mul, ← mul_assoc, Real.sqrt_mul (by positivity),
          Real.sqrt_mul_self hc.le]
      show arccos (clip1 _) = arccos (clip1 _)
      congr 2
      dsimp only
      rw [hn, smul_dotProduct, smul_eq_mul, mul_assoc, mul_div_mul_left _ _ hc.ne']
    simp only [hang] at g2 g3
    have : i = j := by
      rcases lt_trichotomy i j with hlt | heq | hlt
      · exact absurd (h2 j) (not_le.2 (g3 i hlt))
      · exact heq
      · exact absurd (g2 i) (not_le.2 (h3 j hlt))
    rw [h1, g1, this]

/-- C44 on the octahedron. -/
example : ∃ i, nearestLoudspeaker Oct.hull ![1, 2, 3] = .ok (Pi.single i (Oct.hull.d i ^ Oct.hull.a)) ∧
    ∀ l, angleBetween ![1, 2, 3] (Oct.hull.points i) ≤ angleBetween ![1, 2, 3] (Oct.hull.points l) := by
  obtain ⟨i, h1, h2, _⟩ := C44_nearest (by norm_num) Oct.hull (fun l => (Oct.norm_pts l).symm) Oct.pts_ne ![1, 2, 3]
    (fun h => by simpa using congrFun h 0)
  exact ⟨i, h1, h2⟩

/-- `C43_sad` on the cube at order 1. -/
example (F : Matrix (Fin 9) (Fin 3) ℝ) : ∃ (h : Hull 8) (out : _), sad id F h (some 1) = .ok out ∧
    ∀ q t, srcToSh out (fun l => (dirOf (h.points l)).1) (fun l => (dirOf (h.points l)).2) 1 q t = √8 / 2 * F (Fin.castLE (by norm_num) q) t := by
  obtain ⟨azi, zen, hd⟩ := cube_design
  let h : Hull 8 := {
    points := fun l => dirVec (azi l) (zen l), listener := 0, d := fun _ => 1, a := 1, simplices := [],
    centroids := [], faceAreas := [], faceNormals := [], barycenter := 0, encloses := [], valid := [], invBase := none,
    charOrder := none }
  obtain ⟨out, h1, h2⟩ := C43_sad (t := 3) id F h (some 1) 1 rfl (by norm_num) (design_points hd) (by norm_num)
  refine ⟨h, out, h1, fun q t => ?_⟩
  rw [h2 q t]
  norm_num

end Verif.Props
