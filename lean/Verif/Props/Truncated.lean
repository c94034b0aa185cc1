import Verif.Props.Mirror
import Verif.Props.ShTruncate
import Verif.Props.RetainOutside
import Verif.Props.SphDesigns
import Mathlib.Tactic

/-!
C144: ambisonic signals are scalable. The channels up to order `N` of a signal of higher order are the signal of order `N`: encoding, the weighted
transform, rotation, and the normalisation conversions commute with dropping the higher orders, `inverse_sht`, `sad`, `mad` and `epad` ignore
them, and silent higher orders change nothing. `allrad` and `allrad2` refuse such signals, and `sht_lstsq` is not scalable.
-/

namespace Verif.Props
open Real Matrix Verif.Utils Verif.Decoder Verif.Sph

/-- `(N+1)²` channels are contained in `(N'+1)²`. -/
theorem sq_le_sq_of {N N' : ℕ} (h : N ≤ N') : (N + 1) ^ 2 ≤ (N' + 1) ^ 2 := Nat.pow_le_pow_left (by omega) 2

/-- Drop the orders above `N` of a signal with one channel per row. -/
def lowRows {N K S : ℕ} (h : (N + 1) ^ 2 ≤ K) (F : Matrix (Fin K) (Fin S) ℝ) : Matrix (Fin ((N + 1) ^ 2)) (Fin S) ℝ := fun q s => F ⟨q, by omega⟩ s

/-- Drop the orders above `N` of a signal with one channel per column. -/
def lowCols {N K S : ℕ} (h : (N + 1) ^ 2 ≤ K) (F : Matrix (Fin S) (Fin K) ℝ) : Matrix (Fin S) (Fin ((N + 1) ^ 2)) ℝ := fun s q => F s ⟨q, by omega⟩

/-- C144: `src_to_sh` and `sht` (with or without weights) at order `N` are the first `(N+1)²` channels of the same call at any higher order. -/
theorem C144_encode {n Q S N N' : ℕ} (h : N ≤ N') :
    (∀ (sig : Matrix (Fin n) (Fin S) ℝ) (azi zen : Fin n → ℝ), srcToSh sig azi zen N = lowRows (sq_le_sq_of h) (srcToSh sig azi zen N')) ∧
    ∀ (f : Matrix (Fin Q) (Fin S) ℝ) (azi zen : Fin Q → ℝ) (w : Option (Fin Q → ℝ)),
      sht (shMat N azi zen) w f = lowRows (sq_le_sq_of h) (sht (shMat N' azi zen) w f) := by
  refine ⟨fun sig azi zen => rfl, fun f azi zen w => ?_⟩
  cases w <;> rfl

/-- C144: `rotate_sh` never mixes orders: dropping the higher orders before or after the rotation gives the same signal. -/
theorem C144_rotate {N N' B : ℕ} (hN : 1 ≤ N) (h : N ≤ N') (yaw pitch roll : ℝ) (F : Matrix (Fin B) (Fin ((N' + 1) ^ 2)) ℝ) :
    ∃ G, rotateSh ⟨B, (N' + 1) ^ 2, F⟩ yaw pitch roll .real = .ok ⟨B, (N' + 1) ^ 2, G⟩ ∧
      rotateSh ⟨B, (N + 1) ^ 2, lowCols (sq_le_sq_of h) F⟩ yaw pitch roll .real = .ok ⟨B, (N + 1) ^ 2, lowCols (sq_le_sq_of h) G⟩ := by
  refine ⟨_, rotateSh_eq N' B (by omega) yaw pitch roll F, (rotateSh_eq N B hN yaw pitch roll _).trans ?_⟩
  congr 2
  funext b q
  obtain ⟨r, hr⟩ : ∃ r, r = rotationEuler yaw pitch roll := ⟨_, rfl⟩
  rw [← hr]
  change ∑ j : Fin ((N + 1) ^ 2), F b ⟨j, _⟩ * blockE r ((N + 1) ^ 2) (N + 1) q j
    = ∑ j : Fin ((N' + 1) ^ 2), F b j * blockE r ((N' + 1) ^ 2) (N' + 1) ⟨q, _⟩ j
  have hq : acnOrder q < N + 1 := by unfold acnOrder; rw [Nat.sqrt_lt']; exact q.2
  rw [← Finset.sum_subset (Finset.subset_univ (Finset.univ.map (Fin.castLEEmb (sq_le_sq_of h)))), Finset.sum_map]
  · refine Finset.sum_congr rfl fun j _ => ?_
    have hj : acnOrder j < N + 1 := by unfold acnOrder; rw [Nat.sqrt_lt']; exact j.2
    unfold blockE
    by_cases e : acnOrder (q : ℕ) = acnOrder (j : ℕ)
    · rw [if_pos ⟨e, hq⟩, if_pos ⟨e, by simpa using by omega⟩]; rfl
    · rw [if_neg (fun hh => e hh.1), if_neg (fun hh => e hh.1)]; simp
  · intro j _ hj
    have : (N + 1) ^ 2 ≤ (j : ℕ) := by
      by_contra hlt
      push Not at hlt
      refine hj (Finset.mem_map.2 ⟨⟨j, hlt⟩, Finset.mem_univ _, ?_⟩)
      apply Fin.ext; rfl
    have hj2 : N + 1 ≤ acnOrder j := by unfold acnOrder; rw [Nat.le_sqrt']; exact this
    unfold blockE
    rw [if_neg, mul_zero]
    rintro ⟨e, _⟩
    simp only at e
    omega

/-- C144: `n3d_to_sn3d` and `sn3d_to_n3d` commute with dropping the higher orders, along either axis. -/
theorem C144_formats {N N' S : ℕ} (h : N ≤ N') :
    (∀ F : Matrix (Fin ((N' + 1) ^ 2)) (Fin S) ℝ, ∃ G H,
      n3dToSn3d ⟨(N' + 1) ^ 2, S, F⟩ false = .ok ⟨(N' + 1) ^ 2, S, G⟩ ∧ sn3dToN3d ⟨(N' + 1) ^ 2, S, F⟩ false = .ok ⟨(N' + 1) ^ 2, S, H⟩ ∧
      n3dToSn3d ⟨(N + 1) ^ 2, S, lowRows (sq_le_sq_of h) F⟩ false = .ok ⟨(N + 1) ^ 2, S, lowRows (sq_le_sq_of h) G⟩ ∧
      sn3dToN3d ⟨(N + 1) ^ 2, S, lowRows (sq_le_sq_of h) F⟩ false = .ok ⟨(N + 1) ^ 2, S, lowRows (sq_le_sq_of h) H⟩) ∧
    ∀ F : Matrix (Fin S) (Fin ((N' + 1) ^ 2)) ℝ, ∃ G H,
      n3dToSn3d ⟨S, (N' + 1) ^ 2, F⟩ true = .ok ⟨S, (N' + 1) ^ 2, G⟩ ∧ sn3dToN3d ⟨S, (N' + 1) ^ 2, F⟩ true = .ok ⟨S, (N' + 1) ^ 2, H⟩ ∧
      n3dToSn3d ⟨S, (N + 1) ^ 2, lowCols (sq_le_sq_of h) F⟩ true = .ok ⟨S, (N + 1) ^ 2, lowCols (sq_le_sq_of h) G⟩ ∧
      sn3dToN3d ⟨S, (N + 1) ^ 2, lowCols (sq_le_sq_of h) F⟩ true = .ok ⟨S, (N + 1) ^ 2, lowCols (sq_le_sq_of h) H⟩ :=
  ⟨fun F => ⟨_, _, scalePerOrder_rows _ N' S F, scalePerOrder_rows _ N' S F, scalePerOrder_rows _ N S _, scalePerOrder_rows _ N S _⟩,
    fun F => ⟨_, _, scalePerOrder_cols _ N' S F, scalePerOrder_cols _ N' S F, scalePerOrder_cols _ N S _, scalePerOrder_cols _ N S _⟩⟩

theorem applyTruncated_low {K S R N : ℕ} (h : (N + 1) ^ 2 ≤ K) (D : Matrix (Fin R) (Fin ((N + 1) ^ 2)) ℝ) (F : Matrix (Fin K) (Fin S) ℝ) :
    applyTruncated D F = applyTruncated D (lowRows h F) := by
  unfold applyTruncated
  rw [if_neg (by rw [not_not]; exact (shOrder_ge K N).2 h), dif_pos h, if_neg (by rw [not_not]; exact (shOrder_ge _ N).2 le_rfl), dif_pos le_rfl]
  rfl

/-- C144: decoding at order `N` uses the channels up to order `N` only: `sad`, `mad`, `epad` and `inverse_sht` of a signal with more channels give
the same as of its lower orders. -/
theorem C144_decoders {L K S N Q : ℕ} (h : (N + 1) ^ 2 ≤ K) (lstsq : Mat3 → Mat3) (pinv : {m n : ℕ} → Matrix (Fin m) (Fin n) ℝ → Matrix (Fin n) (Fin m) ℝ)
    (svd : {m n : ℕ} → Matrix (Fin m) (Fin n) ℝ → Matrix (Fin m) (Fin m) ℝ × Matrix (Fin n) (Fin n) ℝ) (hull : Hull L) (azi zen : Fin Q → ℝ)
    (F : Matrix (Fin K) (Fin S) ℝ) :
    (∃ X, sad lstsq F hull (some N) = .ok X ∧ sad lstsq (lowRows h F) hull (some N) = .ok X) ∧
    (∃ X, mad lstsq pinv F hull (some N) = .ok X ∧ mad lstsq pinv (lowRows h F) hull (some N) = .ok X) ∧
    (∃ X, epad lstsq svd F hull (some N) = .ok X ∧ epad lstsq svd (lowRows h F) hull (some N) = .ok X) ∧
    ∃ f, inverseSht F azi zen (some N) = .ok f ∧ inverseSht (lowRows h F) azi zen (some N) = .ok f := by
  have key : ∀ {R : ℕ} (D : Matrix (Fin R) (Fin ((N + 1) ^ 2)) ℝ), ∃ X, applyTruncated D F = .ok X ∧ applyTruncated D (lowRows h F) = .ok X := by
    intro R D
    rw [← applyTruncated_low]
    unfold applyTruncated
    rw [if_neg (by rw [not_not]; exact (shOrder_ge K N).2 h), dif_pos h]
    exact ⟨_, rfl, rfl⟩
  refine ⟨key _, key _, key _, ?_⟩
  unfold inverseSht
  rw [if_neg (by simp), if_neg (by simp)]
  simp only [dif_pos h, le_refl, dite_true]
  exact ⟨_, rfl, rfl⟩

/-- C144: silent higher orders are inaudible: evaluating a signal whose channels above order `N` are zero at any higher order gives what order `N`
gives. -/
theorem C144_padding {K S N N' Q : ℕ} (h : N ≤ N') (h' : (N' + 1) ^ 2 ≤ K) (azi zen : Fin Q → ℝ) (F : Matrix (Fin K) (Fin S) ℝ)
    (hz : ∀ (q : Fin K) (s : Fin S), (N + 1) ^ 2 ≤ (q : ℕ) → F q s = 0) :
    ∃ f, inverseSht F azi zen (some N') = .ok f ∧ inverseSht F azi zen (some N) = .ok f := by
  unfold inverseSht
  rw [if_neg (by simp), if_neg (by simp)]
  simp only [dif_pos h', dif_pos ((sq_le_sq_of h).trans h')]
  refine ⟨_, rfl, ?_⟩
  congr 1
  funext p s
  simp only [Matrix.mul_apply, Matrix.submatrix_apply, id]
  symm
  rw [← Finset.sum_subset (Finset.subset_univ (Finset.univ.map (Fin.castLEEmb (sq_le_sq_of h)))), Finset.sum_map]
  · rfl
  · intro j _ hj
    rw [hz, mul_zero]
    by_contra hlt
    push Not at hlt
    refine hj (Finset.mem_map.2 ⟨⟨j, hlt⟩, Finset.mem_univ _, ?_⟩)
    apply Fin.ext; rfl

/-- C144: `allrad` and `allrad2` do not drop higher orders: they give no result for any number of channels other than `(N+1)²`, and a prepared setup
raises `AssertionError`, leaving it as it was, when there is a complete order too many. -/
theorem C144_allrad {L K S N : ℕ} (h : (N + 1) ^ 2 ≠ K) (lstsq : Mat3 → Mat3) (F : Matrix (Fin K) (Fin S) ℝ) (s : Setup L) :
    ((∃ e, (allrad lstsq F (some N) s).1 = .error e) ∧ ∃ e, (allrad2 lstsq F (some N) s).1 = .error e) ∧
    ((N + 2) ^ 2 ≤ K → s.ambi ≠ none → s.kernel ≠ none →
      allrad lstsq F (some N) s = (.error .assertionError, s) ∧ allrad2 lstsq F (some N) s = (.error .assertionError, s)) := by
  have happ : ∀ {R : ℕ} (D : Matrix (Fin R) (Fin ((N + 1) ^ 2)) ℝ), applyDecoder D F = .error .valueError := fun D => by
    unfold applyDecoder; rw [dif_neg h]
  rcases ha : s.ambi with _ | am
  · have hp : ambiPrologue s (some N) = .error .valueError := by unfold ambiPrologue; rw [ha]
    refine ⟨⟨⟨.valueError, ?_⟩, .valueError, ?_⟩, fun _ hh => absurd rfl hh⟩
    · unfold allrad; rw [hp]
    · unfold allrad2; rw [hp]
  rcases hk : s.kernel with _ | k
  · have hp : ambiPrologue s (some N) = .error .valueError := by unfold ambiPrologue; rw [ha, hk]
    refine ⟨⟨⟨.valueError, ?_⟩, .valueError, ?_⟩, fun _ _ hh => absurd rfl hh⟩
    · unfold allrad; rw [hp]
    · unfold allrad2; rw [hp]
  have hp : ambiPrologue s (some N) = .ok (am, k, N) := by unfold ambiPrologue; rw [ha, hk]
  have hbad : (N : ℤ) ≠ shOrder K → allrad lstsq F (some N) s = (.error .assertionError, s) ∧ allrad2 lstsq F (some N) s = (.error .assertionError, s) := by
    intro hne
    unfold allrad allrad2
    rw [hp]
    exact ⟨if_pos hne, if_pos hne⟩
  constructor
  · by_cases hne : (N : ℤ) ≠ shOrder K
    · obtain ⟨e1, e2⟩ := hbad hne
      exact ⟨⟨_, by rw [e1]⟩, _, by rw [e2]⟩
    · unfold allrad allrad2
      rw [hp]
      simp only [if_neg hne, happ]
      constructor
      · rcases (kernelGains lstsq am k).1 with e | G
        · exact ⟨e, rfl⟩
        · exact ⟨_, rfl⟩
      · rcases (allrap2 lstsq k.points (some N) s).1 with e | G
        · exact ⟨e, rfl⟩
        · exact ⟨_, rfl⟩
  · intro hK _ _
    refine hbad ?_
    have := (shOrder_ge K (N + 1)).2 (by simpa [add_assoc] using hK)
    push_cast at this
    omega

/-- C144 (false): `sht_lstsq` is not scalable. For one sample of value one in any direction, the omnidirectional coefficient of the zeroth order fit is four
times that of the first order fit, whatever the solver. -/
theorem C144_lstsq_fails (lstsq : (K : ℕ) → Matrix (Fin 1) (Fin K) ℝ → Matrix (Fin 1) (Fin 1) ℝ → Matrix (Fin K) (Fin 1) ℝ)
    (hl : ∀ K A b, IsLstsq A b (lstsq K A b)) (azi zen : ℝ) (hz : zen ∈ Set.Icc 0 π) :
    shtLstsq lstsq (fun _ _ => 1) 0 (fun _ => azi) (fun _ => zen) = (fun _ _ => √(4 * π)) ∧
    shtLstsq lstsq (fun _ _ => 1) 1 (fun _ => azi) (fun _ => zen) 0 0 = √(4 * π) / 4 ∧
    shtLstsq lstsq (fun _ _ => 1) 0 (fun _ => azi) (fun _ => zen)
      ≠ lowRows (sq_le_sq_of zero_le_one) (shtLstsq lstsq (fun _ _ => 1) 1 (fun _ => azi) (fun _ => zen)) := by
  have hpos : 0 < √(4 * π) := Real.sqrt_pos.2 (by positivity)
  have hs : √(4 * π) * √(4 * π) = 4 * π := Real.mul_self_sqrt (by positivity)
  have gen : ∀ (N : ℕ) (k : Fin ((N + 1) ^ 2)), shtLstsq lstsq (fun _ _ => 1) N (fun _ => azi) (fun _ => zen) k 0 = shVec N azi zen k / ((N + 1) ^ 2 / (4 * π)) := by
    intro N k
    obtain ⟨x, hx⟩ : ∃ x, x = shtLstsq lstsq (fun _ _ => 1) N (fun _ => azi) (fun _ => zen) := ⟨_, rfl⟩
    obtain ⟨y, hy⟩ : ∃ y, y = shVec N azi zen := ⟨_, rfl⟩
    have hL : IsLstsq (shMat N (fun _ : Fin 1 => azi) (fun _ => zen)) (fun _ _ => 1) x := by rw [hx]; exact hl _ _ _
    have hmv : ∀ d : Fin ((N + 1) ^ 2) → ℝ, (shMat N (fun _ : Fin 1 => azi) (fun _ => zen)).mulVec d = fun _ => y ⬝ᵥ d := fun d => by
      funext q; rw [hy]; rfl
    have hyy : y ⬝ᵥ y = ((N : ℝ) + 1) ^ 2 / (4 * π) := by rw [hy]; exact C18_row_norm N azi zen hz
    have hyp : 0 < ((N : ℝ) + 1) ^ 2 / (4 * π) := by positivity
    obtain ⟨h1, h2⟩ := lstsq_orthogonal hL 0
    have e1 : y ⬝ᵥ (fun k => x k 0) = 1 := by
      have := h1 y
      rw [hmv, hmv] at this
      simp only [Finset.univ_unique, Finset.sum_singleton, hyy] at this
      rcases mul_eq_zero.1 this with h0 | h0
      · exact absurd h0 hyp.ne'
      · linarith
    have e2 := h2 ((((N : ℝ) + 1) ^ 2 / (4 * π)) • Pi.single k 1 - y k • y) (by
      rw [hmv]
      funext q
      rw [dotProduct_sub, dotProduct_smul, dotProduct_smul, hyy]
      simp [mul_comm])
    rw [← hx, ← hy]
    change ((((N : ℝ) + 1) ^ 2 / (4 * π)) • Pi.single k 1 - y k • y) ⬝ᵥ (fun k => x k 0) = 0 at e2
    rw [sub_dotProduct, smul_dotProduct, smul_dotProduct, e1, single_dotProduct] at e2
    simp only [smul_eq_mul, one_mul, mul_one] at e2
    rw [eq_div_iff hyp.ne']
    linarith
  have h00 : ∀ (N : ℕ) (k : Fin ((N + 1) ^ 2)), (k : ℕ) = 0 → shVec N azi zen k = 1 / √(4 * π) := by
    intro N k hk
    rw [show k = ⟨0, sq_pos' N⟩ from Fin.ext hk]
    exact realSH_zero _ _
  have a0 : ∀ k : Fin ((0 + 1) ^ 2), shtLstsq lstsq (fun _ _ => 1) 0 (fun _ => azi) (fun _ => zen) k 0 = √(4 * π) := by
    intro k
    rw [gen, h00 0 k (by have := k.2; omega)]
    field_simp
    push_cast
    nlinarith [hs]
  have a1 : shtLstsq lstsq (fun _ _ => 1) 1 (fun _ => azi) (fun _ => zen) 0 0 = √(4 * π) / 4 := by
    rw [gen, h00 1 0 rfl]
    field_simp
    push_cast
    nlinarith [hs]
  refine ⟨?_, a1, fun hh => ?_⟩
  · funext k s
    rw [Subsingleton.elim s 0, a0]
  · have := congrFun (congrFun hh 0) 0
    rw [a0] at this
    change _ = shtLstsq lstsq (fun _ _ => 1) 1 (fun _ => azi) (fun _ => zen) 0 0 at this
    rw [a1] at this
    linarith

/-! #### examples -/

/-- Encoding two sources at third order and keeping four channels is encoding them at first order, and rotating, converting and decoding these
sixteen channels at first order goes through the same four. -/
example (sig : Matrix (Fin 2) (Fin 5) ℝ) (azi zen : Fin 2 → ℝ) :
    srcToSh sig azi zen 1 = lowRows (sq_le_sq_of (by norm_num : 1 ≤ 3)) (srcToSh sig azi zen 3) := (C144_encode (Q := 0) (by norm_num)).1 sig azi zen

example (F : Matrix (Fin 5) (Fin ((3 + 1) ^ 2)) ℝ) : ∃ G, rotateSh ⟨5, (3 + 1) ^ 2, F⟩ 1 (-2) 3 .real = .ok ⟨5, (3 + 1) ^ 2, G⟩ ∧
    rotateSh ⟨5, (1 + 1) ^ 2, lowCols (sq_le_sq_of (by norm_num : 1 ≤ 3)) F⟩ 1 (-2) 3 .real = .ok ⟨5, (1 + 1) ^ 2, lowCols (sq_le_sq_of (by norm_num)) G⟩ :=
  C144_rotate (by norm_num) (by norm_num) 1 (-2) 3 F

/-- Seventeen channels decoded at first order on the octahedron. -/
example (lstsq : Mat3 → Mat3) (F : Matrix (Fin 17) (Fin 5) ℝ) : ∃ X, sad lstsq F Oct.hull (some 1) = .ok X ∧
    sad lstsq (lowRows (N := 1) (by norm_num) F) Oct.hull (some 1) = .ok X :=
  (C144_decoders (Q := 0) (by norm_num) lstsq (fun _ => 0) (fun _ => (0, 0)) Oct.hull (fun _ => 0) (fun _ => 0) F).1

/-- A first order signal in nine channels. -/
example (x : Fin 9 → ℝ) (azi zen : Fin 7 → ℝ) : ∃ f, inverseSht (fun (q : Fin 9) (_ : Fin 1) => if (q : ℕ) < 4 then x q else 0) azi zen (some 2) = .ok f ∧
    inverseSht (fun (q : Fin 9) (_ : Fin 1) => if (q : ℕ) < 4 then x q else 0) azi zen (some 1) = .ok f :=
  C144_padding (by norm_num) (by norm_num) azi zen _ fun q _ hq => if_neg (by norm_num at hq; omega)

/-- `allrad` of a second order signal at first order. -/
example (lstsq : Mat3 → Mat3) (F : Matrix (Fin 9) (Fin 5) ℝ) : (allrad lstsq F (some 1) { fiveSetup with kernel := some ⟨6, Oct.pts, 3⟩ }).1 = .error .assertionError := by
  rw [((C144_allrad (by norm_num) lstsq F _).2 (by norm_num) (by simp [fiveSetup]) (by simp)).1]

/-- A least squares solver, one sample at the north pole. -/
example : ∃ lstsq : (K : ℕ) → Matrix (Fin 1) (Fin K) ℝ → Matrix (Fin 1) (Fin 1) ℝ → Matrix (Fin K) (Fin 1) ℝ,
    shtLstsq lstsq (fun _ _ => 1) 1 (fun _ => 0) (fun _ => 0) 0 0 = √(4 * π) / 4 := by
  choose l hl using fun (K : ℕ) (A : Matrix (Fin 1) (Fin K) ℝ) (b : Matrix (Fin 1) (Fin 1) ℝ) => exists_lstsq A b
  exact ⟨l, (C144_lstsq_fails l hl 0 0 ⟨le_rfl, pi_pos.le⟩).2.1⟩

/-- `C144_formats`: second order signals cut to first order. -/
example (F : Matrix (Fin ((2 + 1) ^ 2)) (Fin 5) ℝ) : ∃ G : Matrix (Fin ((2 + 1) ^ 2)) (Fin 5) ℝ, n3dToSn3d ⟨(2 + 1) ^ 2, 5, F⟩ false = .ok ⟨(2 + 1) ^ 2, 5, G⟩ ∧
    n3dToSn3d ⟨(1 + 1) ^ 2, 5, lowRows (sq_le_sq_of one_le_two) F⟩ false = .ok ⟨(1 + 1) ^ 2, 5, lowRows (sq_le_sq_of one_le_two) G⟩ := by
  obtain ⟨G, H, h1, -, h2, -⟩ := (C144_formats (N := 1) (N' := 2) (S := 5) one_le_two).1 F
  exact ⟨G, h1, h2⟩

end Verif.Props
