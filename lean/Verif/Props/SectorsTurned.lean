import Verif.Props.SectorsTogether
import Verif.Props.AnalysisTurned
import Verif.Props.FiveDesign

/-!
C178: the filter bank (`sph.design_sph_filterbank`) and the sector beamformers (`parsa.sh_sector_beamformer`) turn and mirror with the sound field.
-/

namespace Verif.Props
open Real Matrix Verif.Utils Verif.Sph Verif.Parsa Verif.Decoder

theorem weighted_moved {N J : ℕ} {T : Matrix (Fin ((N + 1) ^ 2)) (Fin ((N + 1) ^ 2)) ℝ} {azi zen azi' zen' : Fin J → ℝ} (h : Moves T azi zen azi' zen')
    (c : ℕ → ℝ) : weightedShMat N azi' zen' c = weightedShMat N azi zen c * T.transpose := by
  ext j q
  rw [weightedShMat, h.steer, Matrix.mul_apply, Matrix.mul_apply, Finset.mul_sum]
  refine Finset.sum_congr rfl fun r _ => ?_
  rw [weightedShMat, Matrix.transpose_apply]
  by_cases e : acnOrder q = acnOrder r
  · rw [repVec, repVec, e]; ring
  · rw [h.blocks q r e]; ring

theorem filterbank_moved {N J : ℕ} {T : Matrix (Fin ((N + 1) ^ 2)) (Fin ((N + 1) ^ 2)) ℝ} {azi zen azi' zen' : Fin (J + 1) → ℝ} (h : Moves T azi zen azi' zen')
    (c : ℕ → ℝ) (mode : FbMode) (pinv) (hpinv : ∀ A, IsPinv A (pinv A)) :
    designFilterbank N azi' zen' c mode pinv = (designFilterbank N azi zen c mode pinv).map fun p => (p.1 * T.transpose, T * p.2) := by
  have hA := weighted_moved h c
  have hB := weighted_moved h fun n => 1 / (c n / c 0)
  cases mode with
  | perfect =>
    show Except.ok (_, _) = Except.ok (_, _)
    rw [hA, hB, Matrix.transpose_mul, Matrix.transpose_transpose, Matrix.mul_smul]
    have e : (weightedShMat N azi zen c * T.transpose) 0 ⟨0, sq_pos' N⟩ = weightedShMat N azi zen c 0 ⟨0, sq_pos' N⟩ := by
      rw [← hA, weighted_first, weighted_first]
    exact congrArg (fun x => Except.ok (weightedShMat N azi zen c * T.transpose,
      (√(4 * π) / (x * ((J + 1 : ℕ) : ℝ))) • (T * (weightedShMat N azi zen fun n => 1 / (c n / c 0)).transpose))) e
  | energy =>
    show Except.ok (_, _) = Except.ok (_, _)
    rw [hA, hB, Matrix.transpose_mul, Matrix.transpose_transpose, Matrix.mul_smul]
    have hcast : ∀ f : Fin ((N + 1) ^ 2) → ℝ, ∑ k : Fin ((N + 1) ^ 2 - 1 + 1), f (Fin.cast (Nat.sub_add_cancel (sq_pos' N)) k) = ∑ q, f q := fun f =>
      Fintype.sum_equiv (finCongr (Nat.sub_add_cancel (sq_pos' N))) _ _ fun _ => rfl
    have e : ∑ q, (weightedShMat N azi zen c * T.transpose) 0 q * (weightedShMat N azi zen c * T.transpose) 0 q
        = ∑ q, weightedShMat N azi zen c 0 q * weightedShMat N azi zen c 0 q := by
      have h1 : (weightedShMat N azi zen c * T.transpose) * (weightedShMat N azi zen c * T.transpose).transpose
          = weightedShMat N azi zen c * (weightedShMat N azi zen c).transpose := by
        rw [Matrix.transpose_mul, Matrix.transpose_transpose, Matrix.mul_assoc, ← Matrix.mul_assoc T.transpose, h.orth, Matrix.one_mul]
      exact congrFun (congrFun h1 0) 0
    have e' := (hcast fun q => (weightedShMat N azi zen c * T.transpose) 0 q * (weightedShMat N azi zen c * T.transpose) 0 q).trans
      (e.trans (hcast fun q => weightedShMat N azi zen c 0 q * weightedShMat N azi zen c 0 q).symm)
    exact congrArg (fun x => Except.ok (weightedShMat N azi zen c * T.transpose,
      √((4 * π) / (x * ((J + 1 : ℕ) : ℝ))) • (T * (weightedShMat N azi zen fun n => 1 / (c n / c 0)).transpose))) e'
  | pinv =>
    show Except.ok (_, _) = Except.ok (_, _)
    rw [hA, pinv_unique (hpinv _) (pinv_turned (hpinv (weightedShMat N azi zen c)) h.orth)]
  | other => rfl

/-- C178: a filter bank with turned sectors analyses the turned sound field like the original one the original field, and what it synthesises
from any sector signals is the turned synthesis; in every mode, on every set of sectors. -/
theorem C178_turned {N J S : ℕ} (hN : 1 ≤ N) (yaw pitch roll : ℝ) (azi zen azi' zen' : Fin (J + 1) → ℝ) (hz : ∀ j, zen j ∈ Set.Icc 0 π)
    (hz' : ∀ j, zen' j ∈ Set.Icc 0 π) (hd : ∀ j, dirVec (azi' j) (zen' j) = (rotationEuler yaw pitch roll).mulVec (dirVec (azi j) (zen j)))
    (c : ℕ → ℝ) (mode : FbMode) (hm : mode ≠ .other) (pinv) (hpinv : ∀ A, IsPinv A (pinv A)) :
    ∃ A B A' B', designFilterbank N azi zen c mode pinv = .ok (A, B) ∧ designFilterbank N azi' zen' c mode pinv = .ok (A', B') ∧
      (∀ F F' : Matrix (Fin S) (Fin ((N + 1) ^ 2)) ℝ, rotateSh ⟨S, (N + 1) ^ 2, F⟩ yaw pitch roll .real = .ok ⟨S, (N + 1) ^ 2, F'⟩ →
        A' * F'.transpose = A * F.transpose) ∧
      ∀ Y : Matrix (Fin (J + 1)) (Fin S) ℝ,
        rotateSh ⟨S, (N + 1) ^ 2, (B * Y).transpose⟩ yaw pitch roll .real = .ok ⟨S, (N + 1) ^ 2, (B' * Y).transpose⟩ := by
  obtain ⟨T, hT, hF⟩ := moves_turn (N := N) (g := J + 1) hN yaw pitch roll
  have hM := hT azi zen azi' zen' hz hz' hd
  obtain ⟨p, hp⟩ : ∃ p, designFilterbank N azi zen c mode pinv = .ok p := by
    cases mode with
    | perfect => exact ⟨_, rfl⟩
    | energy => exact ⟨_, rfl⟩
    | pinv => exact ⟨_, rfl⟩
    | other => exact absurd rfl hm
  have h2 := filterbank_moved hM c mode pinv hpinv
  rw [hp] at h2
  refine ⟨p.1, p.2, _, _, hp, h2, fun F F' hFF => ?_, fun Y => ?_⟩
  · rw [hF] at hFF
    have e : F * T.transpose = F' := eq_of_heq (NpMat.mk.inj (Except.ok.inj hFF)).2.2
    rw [← e, Matrix.transpose_mul, Matrix.transpose_transpose, Matrix.mul_assoc, ← Matrix.mul_assoc T.transpose, hM.orth, Matrix.one_mul]
  · rw [hF, Matrix.mul_assoc T, Matrix.transpose_mul T]

/-- C178: the same for the mirror image. -/
theorem C178_mirrored {N J S : ℕ} (x : Fin 3) (azi zen : Fin (J + 1) → ℝ) (c : ℕ → ℝ) (mode : FbMode) (hm : mode ≠ .other) (pinv)
    (hpinv : ∀ A, IsPinv A (pinv A)) :
    ∃ A B A' B', designFilterbank N azi zen c mode pinv = .ok (A, B) ∧
      designFilterbank N (fun j => (mirrorDir x (azi j) (zen j)).1) (fun j => (mirrorDir x (azi j) (zen j)).2) c mode pinv = .ok (A', B') ∧
      (∀ X : Matrix (Fin ((N + 1) ^ 2)) (Fin S) ℝ, A' * mirrorSig x X = A * X) ∧
      ∀ Y : Matrix (Fin (J + 1)) (Fin S) ℝ, B' * Y = mirrorSig x (B * Y) := by
  have hM := moves_mirror (N := N) x azi zen
  obtain ⟨p, hp⟩ : ∃ p, designFilterbank N azi zen c mode pinv = .ok p := by
    cases mode with
    | perfect => exact ⟨_, rfl⟩
    | energy => exact ⟨_, rfl⟩
    | pinv => exact ⟨_, rfl⟩
    | other => exact absurd rfl hm
  have h2 := filterbank_moved hM c mode pinv hpinv
  rw [hp] at h2
  have hs : ∀ X : Matrix (Fin ((N + 1) ^ 2)) (Fin S) ℝ,
      (Matrix.diagonal fun q : Fin ((N + 1) ^ 2) => mirrorSign x (acnOrder q) (acnDegree q)) * X = mirrorSig x X := fun X => by
    ext q s; rw [Matrix.diagonal_mul]; rfl
  refine ⟨p.1, p.2, _, _, hp, h2, fun X => ?_, fun Y => ?_⟩
  · rw [← hs, Matrix.mul_assoc, ← Matrix.mul_assoc (Matrix.transpose _), hM.orth, Matrix.one_mul]
  · rw [Matrix.mul_assoc, hs]

theorem wxyz_turned {R : Matrix (Fin 3) (Fin 3) ℝ} {a z a' z' : ℝ} (h : dirVec a' z' = R.mulVec (dirVec a z)) (i : Fin 3) :
    wxyz a' z' i.succ = ∑ j, R i j * wxyz a z j.succ := by
  have e : ∀ (a z : ℝ) (j : Fin 3), wxyz a z j.succ = dirVec a z j := fun a z j => by fin_cases j <;> rfl
  simp only [e]
  rw [h]
  rfl

/-- C178: sector beamformers of turned beams: the pressure outputs for the turned sound field are those of the original, the velocity outputs
the turned ones. -/
theorem C178_sectors (design : ℕ → Σ Q : ℕ, (Fin Q → ℝ) × (Fin Q → ℝ)) {J N : ℕ} (hN1 : 1 ≤ N) (hN : N ≤ 9)
    (hd : IsTDesign (2 * (N + 1)) (design (2 * (N + 1))).2.1 (design (2 * (N + 1))).2.2) (yaw pitch roll : ℝ)
    (A A' : Matrix (Fin J) (Fin ((N + 1) ^ 2)) ℝ) (hA : rotateSh ⟨J, (N + 1) ^ 2, A⟩ yaw pitch roll .real = .ok ⟨J, (N + 1) ^ 2, A'⟩) :
    ∃ (rows rows' : List (List ℝ)) (b b' : Fin J → Fin 4 → Fin ((N + 2) ^ 2) → ℝ), sectorBeamformer design A = .ok rows ∧ sectorBeamformer design A' = .ok rows' ∧
      (∀ (s : Fin J) (c : Fin 4), rows[4 * (s : ℕ) + (c : ℕ)]? = some (List.ofFn (b s c)) ∧ rows'[4 * (s : ℕ) + (c : ℕ)]? = some (List.ofFn (b' s c))) ∧
      ∀ (S : ℕ) (F F' : Matrix (Fin S) (Fin ((N + 2) ^ 2)) ℝ), rotateSh ⟨S, (N + 2) ^ 2, F⟩ yaw pitch roll .real = .ok ⟨S, (N + 2) ^ 2, F'⟩ →
        ∀ s t, ∑ q, b' s 0 q * F' t q = ∑ q, b s 0 q * F t q ∧
          ∀ i : Fin 3, ∑ q, b' s i.succ q * F' t q = ∑ j : Fin 3, rotationEuler yaw pitch roll i j * ∑ q, b s j.succ q * F t q := by
  obtain ⟨rows, h1, -, h3⟩ := C87_sectors design hN hd A
  choose b hb1 hb2 using h3
  obtain ⟨rows', h1', -, h3'⟩ := C87_sectors design hN hd A'
  choose b' hb1' hb2' using h3'
  refine ⟨rows, rows', b, b', h1, h1', fun s c => ⟨hb1 s c, hb1' s c⟩, fun S F F' hF s t => ?_⟩
  obtain ⟨E, hE⟩ : ∃ E, E = blockE (rotationEuler yaw pitch roll) ((N + 1 + 1) ^ 2) (N + 1 + 1) := ⟨_, rfl⟩
  have hAA : ∀ s, A' s = (blockE (rotationEuler yaw pitch roll) ((N + 1) ^ 2) (N + 1)).mulVec (A s) := fun s => by
    rw [rotateSh_eq N J hN1] at hA
    have e : A * (blockE (rotationEuler yaw pitch roll) ((N + 1) ^ 2) (N + 1)).transpose = A' := eq_of_heq (NpMat.mk.inj (Except.ok.inj hA)).2.2
    rw [← e]
    funext q
    rw [Matrix.mul_apply]
    exact Finset.sum_congr rfl fun r _ => mul_comm _ _
  have hFF : ∀ t, F' t = E.mulVec (F t) := fun t => by
    have hF' : rotateSh ⟨S, (N + 1 + 1) ^ 2, F⟩ yaw pitch roll .real = .ok ⟨S, (N + 1 + 1) ^ 2, F'⟩ := hF
    rw [rotateSh_eq (N + 1) S (by omega)] at hF'
    have e : F * (blockE (rotationEuler yaw pitch roll) ((N + 1 + 1) ^ 2) (N + 1 + 1)).transpose = F' := eq_of_heq (NpMat.mk.inj (Except.ok.inj hF')).2.2
    rw [← e, hE]
    funext q
    rw [Matrix.mul_apply]
    exact Finset.sum_congr rfl fun r _ => mul_comm _ _
  -- outputs for the turned field are those of turned-back rows
  have hmove : ∀ (v : Fin ((N + 1 + 1) ^ 2) → ℝ) (y : Fin ((N + 1 + 1) ^ 2) → ℝ), ∑ q, v q * E.mulVec y q = ∑ q, E.transpose.mulVec v q * y q := fun v y => by
    have := Matrix.dotProduct_mulVec v E y
    rw [← Matrix.mulVec_transpose] at this
    exact this
  have hval : ∀ (s : Fin J) (c : Fin 4) (a z a' z' : ℝ), z ∈ Set.Icc 0 π → z' ∈ Set.Icc 0 π →
      dirVec a' z' = (rotationEuler yaw pitch roll).mulVec (dirVec a z) →
      ∑ q, E.transpose.mulVec (b' s c) q * shVec (N + 1) a z q = wxyz a' z' c * ∑ q, A s q * shVec N a z q := by
    intro s c a z a' z' hz hz' h
    rw [← hmove, hE, blockE_shVec (N := N + 1) (yaw, pitch, roll) hz hz' h]
    refine (hb2' s c a' z' hz').trans ?_
    rw [hAA s, turned_values (yaw, pitch, roll) (A s) hz hz' h]
  have k0 : E.transpose.mulVec (b' s 0) = b s 0 := by
    refine expansion_unique (N := N + 1) _ _ fun a z hz => ?_
    obtain ⟨a', z', hz', h⟩ := turned_dir (yaw, pitch, roll) a z
    rw [hval s 0 a z a' z' hz hz' h]
    exact (hb2 s 0 a z hz).symm
  have k1 : ∀ i : Fin 3, E.transpose.mulVec (b' s i.succ) = fun q => ∑ j : Fin 3, rotationEuler yaw pitch roll i j * b s j.succ q := by
    intro i
    refine expansion_unique (N := N + 1) _ _ fun a z hz => ?_
    obtain ⟨a', z', hz', h⟩ := turned_dir (yaw, pitch, roll) a z
    rw [hval s i.succ a z a' z' hz hz' h, wxyz_turned h i]
    simp only [Finset.sum_mul]
    rw [Finset.sum_comm]
    refine Finset.sum_congr rfl fun j _ => ?_
    rw [mul_assoc, ← hb2 s j.succ a z hz, Finset.mul_sum]
    exact Finset.sum_congr rfl fun q _ => by ring
  have out : ∀ c, ∑ q, b' s c q * F' t q = ∑ q, E.transpose.mulVec (b' s c) q * F t q := fun c => by
    rw [hFF t]; exact hmove _ _
  refine ⟨by rw [out, k0], fun i => ?_⟩
  rw [out, k1 i]
  simp only [Finset.sum_mul, Finset.mul_sum]
  rw [Finset.sum_comm]
  exact Finset.sum_congr rfl fun j _ => Finset.sum_congr rfl fun q _ => by ring

/-! #### examples -/

/-- `C178_turned`: sectors ahead and to the left, with weights falling by a half from order to order, and a quarter turn to the left. -/
example (F : Matrix (Fin 5) (Fin 9) ℝ) : ∃ (pinv : Matrix (Fin 2) (Fin 9) ℝ → Matrix (Fin 9) (Fin 2) ℝ) (A A' : Matrix (Fin 2) (Fin 9) ℝ) (B B' : Matrix (Fin 9) (Fin 2) ℝ)
    (F' : Matrix (Fin 5) (Fin 9) ℝ), designFilterbank 2 ![0, π / 2] ![π / 2, π / 2] (fun n => 1 / 2 ^ n) .pinv pinv = .ok (A, B) ∧
      designFilterbank 2 ![π / 2, π] ![π / 2, π / 2] (fun n => 1 / 2 ^ n) .pinv pinv = .ok (A', B') ∧
      rotateSh ⟨5, 9, F⟩ (-(π / 2)) 0 0 .real = .ok ⟨5, 9, F'⟩ ∧ A' * F'.transpose = A * F.transpose := by
  choose P hP using fun A : Matrix (Fin 2) (Fin 9) ℝ => exists_pinv A
  have hp := Real.pi_pos
  obtain ⟨A, B, A', B', h1, h2, h3, -⟩ := C178_turned (N := 2) (J := 1) (S := 5) (by norm_num) (-(π / 2)) 0 0 ![0, π / 2] ![π / 2, π / 2] ![π / 2, π] ![π / 2, π / 2]
    (fun j => by fin_cases j <;> constructor <;> simp <;> linarith) (fun j => by fin_cases j <;> constructor <;> simp <;> linarith)
    (fun j => by
      fin_cases j
      · exact quarter_turn
      · funext c
        fin_cases c <;> simp [dirVec, rotationEuler, rotZ, rotY, rotX, Matrix.mulVec, dotProduct, Fin.sum_univ_three, Matrix.mul_apply])
    (fun n => 1 / 2 ^ n) .pinv (by simp) P hP
  have hr := rotateSh_eq 2 5 (by norm_num) (-(π / 2)) 0 0 F
  exact ⟨P, A, A', B, B', _, h1, h2, hr, h3 _ _ hr⟩

/-- `C178_mirrored`: a sector to the left, and one to the right. -/
example (X : Matrix (Fin 9) (Fin 5) ℝ) : ∃ (pinv : Matrix (Fin 1) (Fin 9) ℝ → Matrix (Fin 9) (Fin 1) ℝ) (A A' : Matrix (Fin 1) (Fin 9) ℝ) (B B' : Matrix (Fin 9) (Fin 1) ℝ),
    designFilterbank 2 ![π / 2] ![π / 2] (fun n => 1 / 2 ^ n) .energy pinv = .ok (A, B) ∧
      designFilterbank 2 (fun j => -![π / 2] j) ![π / 2] (fun n => 1 / 2 ^ n) .energy pinv = .ok (A', B') ∧ A' * mirrorSig 1 X = A * X := by
  choose P hP using fun A : Matrix (Fin 1) (Fin 9) ℝ => exists_pinv A
  obtain ⟨A, B, A', B', h1, h2, h3, -⟩ := C178_mirrored (N := 2) (J := 0) (S := 5) 1 ![π / 2] ![π / 2] (fun n => 1 / 2 ^ n) .energy (by simp) P hP
  exact ⟨P, A, A', B, B', h1, h2, h3 X⟩

/-- `C178_sectors`: first-order beams over the design of strength five. -/
example (A : Matrix (Fin 3) (Fin 4) ℝ) : ∃ (azi zen : Fin 24 → ℝ) (A' : Matrix (Fin 3) (Fin 4) ℝ) (rows rows' : List (List ℝ)),
    rotateSh ⟨3, 4, A⟩ 1 0.5 0 .real = .ok ⟨3, 4, A'⟩ ∧ sectorBeamformer (fun _ => ⟨24, azi, zen⟩) A = .ok rows ∧
      sectorBeamformer (fun _ => ⟨24, azi, zen⟩) A' = .ok rows' := by
  obtain ⟨azi, zen, hd⟩ := five_design
  have hd4 : IsTDesign (2 * (1 + 1)) azi zen := ⟨hd.pos, hd.zenith, fun p hp => hd.exact p (by omega)⟩
  have hr := rotateSh_eq 1 3 le_rfl 1 0.5 0 A
  obtain ⟨rows, rows', b, b', h1, h2, -⟩ := C178_sectors (N := 1) (fun _ => ⟨24, azi, zen⟩) le_rfl (by norm_num) hd4 1 0.5 0 A _ hr
  exact ⟨azi, zen, _, rows, rows', hr, h1, h2⟩

end Verif.Props
