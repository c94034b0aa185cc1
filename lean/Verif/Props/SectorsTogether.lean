import Verif.Props.FiveDesign
import Verif.Props.Sector
import Verif.Props.RotationGroup

/-!
C175: the sectors of a filter bank (`sph.design_sph_filterbank`) with their pressure and velocity beamformers
(`parsa.sh_sector_beamformer`) together.
-/

namespace Verif.Props
open Real Verif.Sph Verif.Parsa

/-- The channels of pressure and velocity are present from order one on. -/
theorem first_channels (N : ℕ) (c : Fin 4) : (![0, 3, 1, 2] c : ℕ) < (N + 2) ^ 2 := by
  have : 4 ≤ (N + 2) ^ 2 := by ring_nf; omega
  fin_cases c <;> simp <;> omega

/-- Specification: the channel of pressure (`c = 0`) or of the `x`, `y`, `z` velocity in ACN. -/
def foaChannel (N : ℕ) (c : Fin 4) : Fin ((N + 2) ^ 2) := ⟨![0, 3, 1, 2] c, first_channels N c⟩

/-- Specification: gain of that channel: N3D velocity channels are `√3` larger than the pressure. -/
noncomputable def foaGain (c : Fin 4) : ℝ := ![1, 1 / √3, 1 / √3, 1 / √3] c

theorem foa_pattern (N : ℕ) (c : Fin 4) (azi zen : ℝ) (hz : zen ∈ Set.Icc 0 π) :
    foaGain c * shVec (N + 1) azi zen (foaChannel N c) = wxyz azi zen c * shVec N azi zen ⟨0, sq_pos' N⟩ := by
  obtain ⟨h0, h1, h2, h3⟩ := shVec_first azi zen hz
  have e : ∀ k : Fin 4, ∀ hk : (k : ℕ) < (N + 2) ^ 2, shVec (N + 1) azi zen ⟨k, hk⟩ = shVec 1 azi zen k := fun _ _ => rfl
  have e0 : shVec N azi zen ⟨0, sq_pos' N⟩ = shVec 1 azi zen (0 : Fin 4) := rfl
  have h3' : √3 ≠ 0 := by positivity
  have hq : √(4 * π) ≠ 0 := by positivity
  rw [e0, h0]
  fin_cases c
  · have : shVec (N + 1) azi zen (foaChannel N 0) = shVec 1 azi zen (0 : Fin 4) := rfl
    show foaGain 0 * shVec (N + 1) azi zen (foaChannel N 0) = wxyz azi zen 0 * _
    rw [this, h0]; simp [foaGain, wxyz]
  · have : shVec (N + 1) azi zen (foaChannel N 1) = shVec 1 azi zen (3 : Fin 4) := rfl
    show foaGain 1 * shVec (N + 1) azi zen (foaChannel N 1) = wxyz azi zen 1 * _
    rw [this, h3]; simp [foaGain, wxyz, dirVec]; field_simp
  · have : shVec (N + 1) azi zen (foaChannel N 2) = shVec 1 azi zen (1 : Fin 4) := rfl
    show foaGain 2 * shVec (N + 1) azi zen (foaChannel N 2) = wxyz azi zen 2 * _
    rw [this, h1]; simp [foaGain, wxyz, dirVec]; field_simp
  · have : shVec (N + 1) azi zen (foaChannel N 3) = shVec 1 azi zen (2 : Fin 4) := rfl
    show foaGain 3 * shVec (N + 1) azi zen (foaChannel N 3) = wxyz azi zen 3 * _
    rw [this, h2]; simp [foaGain, wxyz, dirVec]; field_simp

/-- C175: with any analysis beams `A` that a synthesis matrix `B` undoes, the pressure and velocity outputs of all sectors, summed with the
first row of `B`, are the omnidirectional and the three first-order channels of whatever sound field is analysed. -/
theorem C175_field (design : ℕ → Σ Q : ℕ, (Fin Q → ℝ) × (Fin Q → ℝ)) {J N : ℕ} (hN : N ≤ 9)
    (hd : IsTDesign (2 * (N + 1)) (design (2 * (N + 1))).2.1 (design (2 * (N + 1))).2.2) (A : Matrix (Fin J) (Fin ((N + 1) ^ 2)) ℝ)
    (B : Matrix (Fin ((N + 1) ^ 2)) (Fin J) ℝ) (hBA : B * A = 1) :
    ∃ rows, sectorBeamformer design A = .ok rows ∧ rows.length = 4 * J ∧ ∃ b : Fin J → Fin 4 → Fin ((N + 2) ^ 2) → ℝ,
      (∀ (s : Fin J) (c : Fin 4), rows[4 * (s : ℕ) + (c : ℕ)]? = some (List.ofFn (b s c))) ∧ ∀ (X : Fin ((N + 2) ^ 2) → ℝ) (c : Fin 4),
        ∑ s, B ⟨0, sq_pos' N⟩ s * ∑ q, b s c q * X q = foaGain c * X (foaChannel N c) := by
  obtain ⟨rows, h1, h2, h3⟩ := C87_sectors design hN hd A
  choose b hb1 hb2 using h3
  refine ⟨rows, h1, h2, b, hb1, fun X c => ?_⟩
  have hB : ∀ q, ∑ s, B ⟨0, sq_pos' N⟩ s * A s q = if (⟨0, sq_pos' N⟩ : Fin ((N + 1) ^ 2)) = q then 1 else 0 := fun q => by
    have := congrFun (congrFun hBA ⟨0, sq_pos' N⟩) q
    rwa [Matrix.mul_apply, Matrix.one_apply] at this
  have hc : (fun q => ∑ s, B ⟨0, sq_pos' N⟩ s * b s c q) = fun q => if q = foaChannel N c then foaGain c else 0 := by
    refine expansion_unique (N := N + 1) _ _ fun a z hz => ?_
    have l : ∑ q, (∑ s, B ⟨0, sq_pos' N⟩ s * b s c q) * shVec (N + 1) a z q
        = ∑ s, B ⟨0, sq_pos' N⟩ s * ∑ q, b s c q * shVec (N + 1) a z q := by
      simp only [Finset.sum_mul, Finset.mul_sum]
      rw [Finset.sum_comm]
      exact Finset.sum_congr rfl fun s _ => Finset.sum_congr rfl fun q _ => by ring
    have r : ∑ s, B ⟨0, sq_pos' N⟩ s * (wxyz a z c * ∑ q, A s q * shVec N a z q)
        = wxyz a z c * ∑ q, (∑ s, B ⟨0, sq_pos' N⟩ s * A s q) * shVec N a z q := by
      simp only [Finset.sum_mul, Finset.mul_sum]
      rw [Finset.sum_comm]
      exact Finset.sum_congr rfl fun s _ => Finset.sum_congr rfl fun q _ => by ring
    refine l.trans ?_
    rw [Finset.sum_congr rfl fun s _ => by rw [hb2 s c a z hz], r]
    simp only [hB, ite_mul, one_mul, zero_mul, Finset.sum_ite_eq, Finset.mem_univ, if_true]
    rw [← foa_pattern N c a z hz]
    simp
  have l : ∑ s, B ⟨0, sq_pos' N⟩ s * ∑ q, b s c q * X q = ∑ q, (∑ s, B ⟨0, sq_pos' N⟩ s * b s c q) * X q := by
    simp only [Finset.sum_mul, Finset.mul_sum]
    rw [Finset.sum_comm]
    exact Finset.sum_congr rfl fun s _ => Finset.sum_congr rfl fun q _ => by ring
  rw [l, Finset.sum_congr rfl fun q _ => by rw [congrFun hc q]]
  simp

/-- C175: in particular for the filter bank `design_sph_filterbank(…, mode='perfect')` on a design of sectors. -/
theorem C175_perfect (design : ℕ → Σ Q : ℕ, (Fin Q → ℝ) × (Fin Q → ℝ)) {J N t : ℕ} (hN : N ≤ 9)
    (hd : IsTDesign (2 * (N + 1)) (design (2 * (N + 1))).2.1 (design (2 * (N + 1))).2.2) (azi zen : Fin (J + 1) → ℝ)
    (hs : IsTDesign t azi zen) (ht : 2 * N ≤ t) (w : ℕ → ℝ) (hw : ∀ n ≤ N, w n ≠ 0) (pinv) :
    ∃ A B, designFilterbank N azi zen w .perfect pinv = .ok (A, B) ∧
    ∃ rows, sectorBeamformer design A = .ok rows ∧ rows.length = 4 * (J + 1) ∧ ∃ b : Fin (J + 1) → Fin 4 → Fin ((N + 2) ^ 2) → ℝ,
      (∀ (s : Fin (J + 1)) (c : Fin 4), rows[4 * (s : ℕ) + (c : ℕ)]? = some (List.ofFn (b s c))) ∧ ∀ (X : Fin ((N + 2) ^ 2) → ℝ) (c : Fin 4),
        ∑ s, B ⟨0, sq_pos' N⟩ s * ∑ q, b s c q * X q = foaGain c * X (foaChannel N c) := by
  obtain ⟨A, B, h1, h2, -⟩ := C24_perfect azi zen hs ht w hw pinv
  exact ⟨A, B, h1, C175_field design hN hd A B h2⟩

/-- C175: with `mode='energy'` the products of pressure and velocity of the sectors add up, for a plane wave, to its energy times its direction,
and the squared pressures to its energy. -/
theorem C175_energy (design : ℕ → Σ Q : ℕ, (Fin Q → ℝ) × (Fin Q → ℝ)) {J N t : ℕ} (hN : N ≤ 9)
    (hd : IsTDesign (2 * (N + 1)) (design (2 * (N + 1))).2.1 (design (2 * (N + 1))).2.2) (azi zen : Fin (J + 1) → ℝ)
    (hs : IsTDesign t azi zen) (ht : 2 * N ≤ t) (w : ℕ → ℝ) (hw : w 0 ≠ 0) (pinv) :
    ∃ A B, designFilterbank N azi zen w .energy pinv = .ok (A, B) ∧
    ∃ rows, sectorBeamformer design A = .ok rows ∧ rows.length = 4 * (J + 1) ∧ ∃ b : Fin (J + 1) → Fin 4 → Fin ((N + 2) ^ 2) → ℝ,
      (∀ (s : Fin (J + 1)) (c : Fin 4), rows[4 * (s : ℕ) + (c : ℕ)]? = some (List.ofFn (b s c))) ∧ ∀ (g a : ℝ), ∀ z ∈ Set.Icc 0 π, ∀ c : Fin 4,
        ∑ s, (B ⟨0, sq_pos' N⟩ s * ∑ q, b s 0 q * (g * shVec (N + 1) a z q)) * (B ⟨0, sq_pos' N⟩ s * ∑ q, b s c q * (g * shVec (N + 1) a z q))
          = g ^ 2 / (4 * π) * ![1, dirVec a z 0, dirVec a z 1, dirVec a z 2] c := by
  obtain ⟨A, B, h1, h2⟩ := C24_energy azi zen hs ht w hw pinv
  obtain ⟨rows, h3, h4, h5⟩ := C87_sectors design hN hd A
  choose b hb1 hb2 using h5
  refine ⟨A, B, h1, rows, h3, h4, b, hb1, fun g a z hz c => ?_⟩
  have hg : ∀ s c, ∑ q, b s c q * (g * shVec (N + 1) a z q) = g * (wxyz a z c * ∑ q, A s q * shVec N a z q) := fun s c => by
    rw [← hb2 s c a z hz, Finset.mul_sum]
    exact Finset.sum_congr rfl fun q _ => by ring
  have hm : ∀ s, ∑ q, A s q * shVec N a z q = A.mulVec (shVec N a z) s := fun _ => rfl
  have h0 : shVec N a z ⟨0, sq_pos' N⟩ = 1 / √(4 * π) := (shVec_first a z hz).1
  have key := h2 a z hz
  rw [h0, div_pow, one_pow, Real.sq_sqrt (by positivity)] at key
  have hw0 : wxyz a z 0 = 1 := rfl
  have : ∀ s, (B ⟨0, sq_pos' N⟩ s * ∑ q, b s 0 q * (g * shVec (N + 1) a z q)) * (B ⟨0, sq_pos' N⟩ s * ∑ q, b s c q * (g * shVec (N + 1) a z q))
      = g ^ 2 * wxyz a z c * (B ⟨0, sq_pos' N⟩ s * A.mulVec (shVec N a z) s) ^ 2 := fun s => by
    rw [hg, hg, hw0, hm]; ring
  rw [Finset.sum_congr rfl fun s _ => this s, ← Finset.mul_sum, key]
  show g ^ 2 * wxyz a z c * (1 / (4 * π)) = g ^ 2 / (4 * π) * wxyz a z c
  ring

/-- The hypotheses are met by the corners of a cube as sectors and as design: beams of order zero; then the sum over the sectors of the `x`
velocity is the fourth channel divided by `√3`. -/
example : ∃ (azi zen : Fin 8 → ℝ) (A : Matrix (Fin 8) (Fin ((0 + 1) ^ 2)) ℝ) (B : Matrix (Fin ((0 + 1) ^ 2)) (Fin 8) ℝ) (rows : List (List ℝ))
    (b : Fin 8 → Fin 4 → Fin ((0 + 2) ^ 2) → ℝ), designFilterbank 0 azi zen (fun _ => 1) .perfect (fun _ => 0) = .ok (A, B)
    ∧ sectorBeamformer (fun _ => ⟨8, azi, zen⟩) A = .ok rows ∧ (∀ (s : Fin 8) (c : Fin 4), rows[4 * (s : ℕ) + (c : ℕ)]? = some (List.ofFn (b s c)))
    ∧ ∀ X : Fin ((0 + 2) ^ 2) → ℝ, ∑ s, B 0 s * ∑ q, b s 1 q * X q = X 3 / √3 := by
  obtain ⟨azi, zen, hd⟩ := cube_design
  have hd2 : IsTDesign (2 * (0 + 1)) azi zen := ⟨hd.pos, hd.zenith, fun p hp => hd.exact p (by omega)⟩
  obtain ⟨A, B, h1, rows, h2, -, b, h3, h4⟩ := C175_perfect (N := 0) (t := 3) (fun _ => ⟨8, azi, zen⟩) (by norm_num) hd2 azi zen hd (by norm_num)
    (fun _ => 1) (fun _ _ => one_ne_zero) (fun _ => 0)
  refine ⟨azi, zen, A, B, rows, b, h1, h2, h3, fun X => ?_⟩
  have := h4 X 1
  have e : foaChannel 0 1 = (3 : Fin ((0 + 2) ^ 2)) := rfl
  rw [e] at this
  refine Eq.trans this ?_
  simp [foaGain]; ring

/-- `C175_energy`: first-order sectors at the 24 directions of a design of strength five. -/
example : ∃ (azi zen : Fin 24 → ℝ) (A : Matrix (Fin 24) (Fin ((1 + 1) ^ 2)) ℝ) (B : Matrix (Fin ((1 + 1) ^ 2)) (Fin 24) ℝ) (rows : List (List ℝ))
    (b : Fin 24 → Fin 4 → Fin ((1 + 2) ^ 2) → ℝ), designFilterbank 1 azi zen (fun n => 1 / 2 ^ n) .energy (fun _ => 0) = .ok (A, B)
    ∧ sectorBeamformer (fun _ => ⟨24, azi, zen⟩) A = .ok rows ∧ (∀ (s : Fin 24) (c : Fin 4), rows[4 * (s : ℕ) + (c : ℕ)]? = some (List.ofFn (b s c))) := by
  obtain ⟨azi, zen, hd⟩ := five_design
  have hd4 : IsTDesign (2 * (1 + 1)) azi zen := ⟨hd.pos, hd.zenith, fun p hp => hd.exact p (by omega)⟩
  obtain ⟨A, B, h1, rows, h2, -, b, h3, -⟩ := C175_energy (N := 1) (t := 5) (fun _ => ⟨24, azi, zen⟩) (by norm_num) hd4 azi zen hd (by norm_num)
    (fun n => 1 / 2 ^ n) (by norm_num) (fun _ => 0)
  exact ⟨azi, zen, A, B, rows, b, h1, h2, h3⟩

end Verif.Props
