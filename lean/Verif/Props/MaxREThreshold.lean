import Verif.Proofs.LegendreSeries
import Mathlib.Analysis.SpecialFunctions.Trigonometric.Bounds
import Mathlib.Analysis.Real.Pi.Bounds

/-!
C111: the exact order up to which all max-rE weights are positive.
-/

namespace Verif.Props
open Real Verif.Sph

/-! ### Bounds of the coefficients -/

theorem legQ_mono (n k : ℕ) (hk : k ≤ n) (t : ℝ) (ht : 0 ≤ t) :
    0 ≤ legQ k n * t ^ k ∧ legQ k n * t ^ k ≤ (n * (n + 1) * t) ^ k ∧
    (n * (n + 1) * t) ^ k * (n * (n + 1) * t - ((k : ℝ) - 1) * k * (k + 1) / 3 * t) ≤ n * (n + 1) * t * (legQ k n * t ^ k) := by
  have hy : 0 ≤ (n : ℝ) * (n + 1) * t := by positivity
  induction k with
  | zero => simp [legQ]
  | succ k ih =>
    obtain ⟨h1, h2, h3⟩ := ih (by omega)
    set y := (n : ℝ) * (n + 1) * t with hyd
    set c := legQ k n * t ^ k with hc
    have hnk : (k : ℝ) + 1 ≤ n := by exact_mod_cast hk
    have e : legQ (k + 1) n * t ^ (k + 1) = c * (y - k * (k + 1) * t) := by
      rw [hc, hyd, legQ, pow_succ]; ring
    have hf0 : 0 ≤ y - k * (k + 1) * t := by
      have : (k : ℝ) * (k + 1) ≤ n * (n + 1) := by
        have : (0 : ℝ) ≤ k := Nat.cast_nonneg k
        nlinarith
      have := mul_le_mul_of_nonneg_right this ht
      linarith
    have hf1 : y - k * (k + 1) * t ≤ y := by
      have : (0 : ℝ) ≤ k * (k + 1) * t := by positivity
      linarith
    rw [e]
    refine ⟨mul_nonneg h1 hf0, ?_, ?_⟩
    · rw [pow_succ]
      exact mul_le_mul h2 hf1 hf0 (by positivity)
    · have h4 := mul_le_mul_of_nonneg_right h3 hf0
      have hyk : 0 ≤ y ^ k := by positivity
      have hS : (0 : ℝ) ≤ ((k : ℝ) - 1) * k * (k + 1) := by
        rcases Nat.eq_zero_or_pos k with rfl | h
        · simp
        · have : (1 : ℝ) ≤ k := by exact_mod_cast h
          have : (0 : ℝ) ≤ k - 1 := by linarith
          positivity
      have h5 : 0 ≤ y ^ k * (((k : ℝ) - 1) * k * (k + 1) / 3 * t * (k * (k + 1) * t)) := by positivity
      push_cast
      rw [pow_succ]
      nlinarith [h4, h5]

/-- Truncated series of `J0(2√y)`. -/
noncomputable def bes (y : ℝ) : ℝ := 1 - y + y ^ 2 / 4 - y ^ 3 / 36 + y ^ 4 / 576 - y ^ 5 / 14400 + y ^ 6 / 518400 - y ^ 7 / 25401600

theorem bes_deriv (y : ℝ) : HasDerivAt bes (-1 + y / 2 - y ^ 2 / 12 + y ^ 3 / 144 - y ^ 4 / 2880 + y ^ 5 / 86400 - y ^ 6 / 3628800) y := by
  unfold bes
  have h := ((((((((hasDerivAt_const y (1 : ℝ)).sub (hasDerivAt_id' y)).add (((hasDerivAt_pow 2 y).div_const 4))).sub ((hasDerivAt_pow 3 y).div_const 36)).add
    ((hasDerivAt_pow 4 y).div_const 576)).sub ((hasDerivAt_pow 5 y).div_const 14400)).add ((hasDerivAt_pow 6 y).div_const 518400)).sub
    ((hasDerivAt_pow 7 y).div_const 25401600))
  refine h.congr_deriv ?_
  norm_num
  ring

theorem bes_slope {y Y : ℝ} (h0 : 0 ≤ y) (hy : y ≤ Y) (hY : Y ≤ 1.45) : bes Y + 0.425 * (Y - y) ≤ bes y := by
  have hd : ∀ z : ℝ, HasDerivAt (fun z => bes z + 0.425 * z) ((-1 + z / 2 - z ^ 2 / 12 + z ^ 3 / 144 - z ^ 4 / 2880 + z ^ 5 / 86400 - z ^ 6 / 3628800) + 0.425) z := by
    intro z
    have := (bes_deriv z).add ((hasDerivAt_id' z).const_mul (0.425 : ℝ))
    rwa [mul_one] at this
  have ha : AntitoneOn (fun z => bes z + 0.425 * z) (Set.Icc 0 1.45) := by
    refine antitoneOn_of_deriv_nonpos (convex_Icc _ _) (fun z _ => (hd z).continuousAt.continuousWithinAt)
      (fun z _ => (hd z).differentiableAt.differentiableWithinAt) ?_
    intro z hz
    rw [interior_Icc] at hz
    obtain ⟨h1, h2⟩ := hz
    rw [(hd z).deriv]
    have e1 : z ^ 5 / 86400 ≤ z ^ 4 / 2880 := by
      have : 0 ≤ z ^ 4 := by positivity
      have : z ^ 5 ≤ z ^ 4 * 1.45 := by rw [pow_succ]; gcongr
      linarith
    have e2 : 0 ≤ z ^ 6 / 3628800 := by positivity
    have e3 : -1 + z / 2 - z ^ 2 / 12 + z ^ 3 / 144 + 0.425 ≤ 0 := by nlinarith [mul_pos h1 (sub_pos.2 h2), sq_nonneg (z - 1.45), sq_nonneg z]
    linarith
  have := ha ⟨h0, hy.trans hY⟩ ⟨h0.trans hy, hY⟩ hy
  simp only at this
  linarith

theorem legPart_seven (t : ℝ) (n : ℕ) : legPart t 7 n = 1 - legQ 1 n * t ^ 1 + legQ 2 n * t ^ 2 / 4 - legQ 3 n * t ^ 3 / 36 + legQ 4 n * t ^ 4 / 576
    - legQ 5 n * t ^ 5 / 14400 + legQ 6 n * t ^ 6 / 518400 - legQ 7 n * t ^ 7 / 25401600 := by
  simp only [legPart, Finset.sum_range_succ, Finset.sum_range_zero, Nat.factorial]
  norm_num [legQ]
  ring

theorem legPart_eight (t : ℝ) (n : ℕ) : legPart t 8 n = legPart t 7 n + legQ 8 n * t ^ 8 / 1625702400 := by
  unfold legPart
  rw [Finset.sum_range_succ]
  norm_num [Nat.factorial]

/-- From below. -/
theorem legPart_lower (n : ℕ) (hn : 7 ≤ n) (t y : ℝ) (ht : 0 < t) (hy : y = n * (n + 1) * t) (h : y ≤ 1.4465) : bes y - 0.83 * t ≤ legPart t 7 n := by
  have hn0 : (0 : ℝ) < n := by exact_mod_cast (by omega : 0 < n)
  have hy0 : 0 < y := by rw [hy]; positivity
  have q : ∀ k ≤ 7, 0 ≤ legQ k n * t ^ k ∧ legQ k n * t ^ k ≤ y ^ k ∧ y ^ k * (y - ((k : ℝ) - 1) * k * (k + 1) / 3 * t) ≤ y * (legQ k n * t ^ k) := by
    intro k hk
    rw [hy]
    exact legQ_mono n k (hk.trans hn) t ht.le
  rw [legPart_seven]
  have q1 := (q 1 (by norm_num)).2.1
  have q2 := (q 2 (by norm_num)).2.2
  have q3 := (q 3 (by norm_num)).2.1
  have q4 := (q 4 (by norm_num)).2.2
  have q5 := (q 5 (by norm_num)).2.1
  have q6 := (q 6 (by norm_num)).2.2
  have q7 := (q 7 (by norm_num)).2.1
  have q2' : y * (y - 2 * t) ≤ legQ 2 n * t ^ 2 := by
    refine le_of_mul_le_mul_left ?_ hy0
    push_cast at q2
    linarith
  have q4' : y ^ 3 * (y - 20 * t) ≤ legQ 4 n * t ^ 4 := by
    refine le_of_mul_le_mul_left ?_ hy0
    push_cast at q4
    linarith
  have q6' : y ^ 5 * (y - 70 * t) ≤ legQ 6 n * t ^ 6 := by
    refine le_of_mul_le_mul_left ?_ hy0
    push_cast at q6
    linarith
  have hb : y / 2 + 20 * y ^ 3 / 576 + 70 * y ^ 5 / 518400 ≤ 0.83 := by
    have h3 : y ^ 3 ≤ 1.4465 ^ 3 := by gcongr
    have h5 : y ^ 5 ≤ 1.4465 ^ 5 := by gcongr
    norm_num at h3 h5 ⊢
    linarith
  have hbt := mul_le_mul_of_nonneg_right hb ht.le
  unfold bes
  nlinarith [q1, q2', q3, q4', q5, q6', q7, hbt]

/-- From above. -/
theorem legPart_upper (n : ℕ) (hn : 8 ≤ n) (t y : ℝ) (ht : 0 < t) (hy : y = n * (n + 1) * t) (h1 : 1.4 ≤ y) (h : y ≤ 1.45) :
    legPart t 8 n ≤ bes y + y ^ 8 / 1625702400 := by
  have hn0 : (0 : ℝ) < n := by exact_mod_cast (by omega : 0 < n)
  have hy0 : 0 < y := by rw [hy]; positivity
  have q : ∀ k ≤ 8, 0 ≤ legQ k n * t ^ k ∧ legQ k n * t ^ k ≤ y ^ k ∧ y ^ k * (y - ((k : ℝ) - 1) * k * (k + 1) / 3 * t) ≤ y * (legQ k n * t ^ k) := by
    intro k hk
    rw [hy]
    exact legQ_mono n k (hk.trans hn) t ht.le
  rw [legPart_eight, legPart_seven]
  have q1 : legQ 1 n * t ^ 1 = y := by rw [hy]; norm_num [legQ]
  have q2 : legQ 2 n * t ^ 2 = y * (y - 2 * t) := by rw [hy]; norm_num [legQ]; ring
  have q3 := (q 3 (by norm_num)).2.2
  have q4 := (q 4 (by norm_num)).2.1
  have q5 := (q 5 (by norm_num)).2.2
  have q6 := (q 6 (by norm_num)).2.1
  have q7 := (q 7 (by norm_num)).2.2
  have q8 := (q 8 (by norm_num)).2.1
  have q3' : y ^ 2 * (y - 8 * t) ≤ legQ 3 n * t ^ 3 := by
    refine le_of_mul_le_mul_left ?_ hy0
    push_cast at q3
    linarith
  have q5' : y ^ 4 * (y - 40 * t) ≤ legQ 5 n * t ^ 5 := by
    refine le_of_mul_le_mul_left ?_ hy0
    push_cast at q5
    linarith
  have q7' : y ^ 6 * (y - 112 * t) ≤ legQ 7 n * t ^ 7 := by
    refine le_of_mul_le_mul_left ?_ hy0
    push_cast at q7
    linarith
  have hb : -(y / 2) + 8 * y ^ 2 / 36 + 40 * y ^ 4 / 14400 + 112 * y ^ 6 / 25401600 ≤ 0 := by
    have h2 : y ^ 2 ≤ 1.45 ^ 2 := by gcongr
    have h4 : y ^ 4 ≤ 1.45 ^ 4 := by gcongr
    have h6 : y ^ 6 ≤ 1.45 ^ 6 := by gcongr
    norm_num at h2 h4 h6 ⊢
    linarith
  have hbt := mul_le_mul_of_nonneg_right hb ht.le
  rw [q1, q2]
  unfold bes
  nlinarith [q3', q4, q5', q6, q7', q8, hbt]

/-! ### The argument of the weights -/

/-- `(1 - cos θ)/2` for `θ = 137.9°/(N+1.51)`. -/
theorem half_versine_bounds (N : ℕ) (T : ℝ) (hT : T = (137.9 * π / 360) ^ 2 / ((N : ℝ) + 1.51) ^ 2) :
    T - T ^ 2 / 3 ≤ (1 - cos (137.9 * (π / 180) / ((N : ℝ) + 1.51))) / 2 ∧ (1 - cos (137.9 * (π / 180) / ((N : ℝ) + 1.51))) / 2 ≤ T := by
  set x := 137.9 * π / 360 / ((N : ℝ) + 1.51) with hx
  have hN : (0 : ℝ) < N + 1.51 := by positivity
  have hx0 : 0 < x := by rw [hx]; positivity
  have hx2 : x < 2 := by
    rw [hx, div_lt_iff₀ hN]
    have := pi_lt_d2
    have : (0 : ℝ) ≤ N := Nat.cast_nonneg N
    norm_num
    linarith
  have e : (1 - cos (137.9 * (π / 180) / ((N : ℝ) + 1.51))) / 2 = sin x ^ 2 := by
    rw [show 137.9 * (π / 180) / ((N : ℝ) + 1.51) = 2 * x by rw [hx]; ring, cos_two_mul, sin_sq]
    ring
  have eT : T = x ^ 2 := by rw [hT, hx, ← div_pow]
  rw [e, eT]
  have h1 := sin_ge_sub_cube hx0.le
  have h2 := sin_le hx0.le
  have h3 : 0 ≤ x - x ^ 3 / 6 := by
    have : x - x ^ 3 / 6 = x * (1 - x ^ 2 / 6) := by ring
    rw [this]
    have : 0 ≤ 1 - x ^ 2 / 6 := by nlinarith
    positivity
  have h4 : 0 ≤ sin x := h3.trans h1
  constructor
  · have := mul_self_le_mul_self h3 h1
    have h6 : 0 ≤ x ^ 6 := by positivity
    nlinarith
  · exact pow_le_pow_left₀ h4 h2 2

theorem kappa_bounds : 1.448182436951 ≤ (137.9 * π / 360) ^ 2 ∧ (137.9 * π / 360) ^ 2 ≤ 1.448182436952 := by
  have h1 := pi_gt_d20
  have h2 := pi_lt_d20
  have h3 : (137.9 * 3.14159265358979323846 / 360 : ℝ) ≤ 137.9 * π / 360 := by gcongr
  have h4 : 137.9 * π / 360 ≤ (137.9 * 3.14159265358979323847 / 360 : ℝ) := by gcongr
  constructor
  · refine le_trans ?_ (pow_le_pow_left₀ (by norm_num) h3 2)
    norm_num
  · refine le_trans (pow_le_pow_left₀ (by positivity) h4 2) ?_
    norm_num

theorem last_weight_pos (N : ℕ) (h7 : 7 ≤ N) (hN : N ≤ 1223) : 0 < evalLegendre N (cos (137.9 * (π / 180) / ((N : ℝ) + 1.51))) := by
  obtain ⟨T, hT⟩ : ∃ T, T = (137.9 * π / 360) ^ 2 / ((N : ℝ) + 1.51) ^ 2 := ⟨_, rfl⟩
  obtain ⟨b1, b2⟩ := half_versine_bounds N T hT
  refine lt_of_lt_of_le ?_ (legPart_bounds _ (abs_cos_le_one _) 3 N).1
  set t := (1 - cos (137.9 * (π / 180) / ((N : ℝ) + 1.51))) / 2 with ht
  obtain ⟨k1, k2⟩ := kappa_bounds
  have h7' : (7 : ℝ) ≤ N := by exact_mod_cast h7
  have hN' : (N : ℝ) ≤ 1223 := by exact_mod_cast hN
  obtain ⟨v, hv⟩ : ∃ v, v = 1 / ((N : ℝ) + 1.51) := ⟨_, rfl⟩
  have hu : (0 : ℝ) < N + 1.51 := by linarith
  have hv1 : v ≤ 1 / 8.51 := by rw [hv]; exact one_div_le_one_div_of_le (by norm_num) (by linarith)
  have hv0 : 1 / 1224.51 ≤ v := by rw [hv]; exact one_div_le_one_div_of_le hu (by linarith)
  have hvpos : 0 < v := lt_of_lt_of_le (by norm_num) hv0
  have hTv : T ≤ 1.448182436952 * v ^ 2 := by
    rw [hT, hv, one_div, inv_pow, div_eq_mul_inv]
    gcongr
  have hT0 : 0 < T := by rw [hT]; positivity
  have hT1 : T < 1 := by nlinarith
  have ht0 : 0 < t := lt_of_lt_of_le (by nlinarith) b1
  have hM : (N : ℝ) * (N + 1) * v ^ 2 = 1 - 2.02 * v + 0.7701 * v ^ 2 := by
    rw [hv]; field_simp; ring
  set y := (N : ℝ) * (N + 1) * t with hy
  have hyv : y ≤ 1.448182436952 * (1 - 2.02 * v + 0.7701 * v ^ 2) := by
    rw [← hM, hy]
    have : t ≤ 1.448182436952 * v ^ 2 := b2.trans hTv
    have h := mul_le_mul_of_nonneg_left this (by positivity : (0 : ℝ) ≤ N * (N + 1))
    linarith
  have hy0 : 0 < y := by rw [hy]; positivity
  obtain ⟨Y, hYd⟩ : ∃ Y : ℝ, Y = 1.448182436952 * (1 - 2.02 * (1 / 1224.51) + 0.7701 * (1 / 1224.51) ^ 2) := ⟨_, rfl⟩
  have hYn : Y ≤ 1.44579421 := by rw [hYd]; norm_num
  have hYv : Y - 1.448182436952 * (1 - 2.02 * v + 0.7701 * v ^ 2)
      = 1.448182436952 * ((v - 1 / 1224.51) * (2.02 - 0.7701 * (v + 1 / 1224.51))) := by rw [hYd]; ring
  have hle : 1.448182436952 * (1 - 2.02 * v + 0.7701 * v ^ 2) ≤ Y := by
    have : 0 ≤ (v - 1 / 1224.51) * (2.02 - 0.7701 * (v + 1 / 1224.51)) := mul_nonneg (by linarith) (by norm_num at hv1 ⊢; linarith)
    linarith
  have hyY : y ≤ Y := hyv.trans hle
  refine lt_of_lt_of_le ?_ (legPart_lower N h7 t y ht0 hy (by linarith))
  have s1 := bes_slope hy0.le hyY (by linarith)
  have htv : t ≤ 1.448182436952 * v ^ 2 := b2.trans hTv
  have hnum : 0 < bes Y - 0.83 * (1.448182436952 * (1 / 1224.51) ^ 2) := by
    rw [hYd]
    unfold bes
    norm_num
  have hfin : 0 ≤ 0.425 * ((v - 1 / 1224.51) * (2.02 - 0.7701 * (v + 1 / 1224.51))) - 0.83 * ((v - 1 / 1224.51) * (v + 1 / 1224.51)) := by
    have : 0 ≤ (v - 1 / 1224.51) * (0.425 * (2.02 - 0.7701 * (v + 1 / 1224.51)) - 0.83 * (v + 1 / 1224.51)) :=
      mul_nonneg (by linarith) (by norm_num at hv1 ⊢; linarith)
    linarith
  nlinarith

theorem last_weight_neg (N : ℕ) (hN : 1225 ≤ N) : evalLegendre N (cos (137.9 * (π / 180) / ((N : ℝ) + 1.51))) < 0 := by
  obtain ⟨T, hT⟩ : ∃ T, T = (137.9 * π / 360) ^ 2 / ((N : ℝ) + 1.51) ^ 2 := ⟨_, rfl⟩
  obtain ⟨b1, b2⟩ := half_versine_bounds N T hT
  refine lt_of_le_of_lt (legPart_bounds _ (abs_cos_le_one _) 4 N).2 ?_
  set t := (1 - cos (137.9 * (π / 180) / ((N : ℝ) + 1.51))) / 2 with ht
  obtain ⟨k1, k2⟩ := kappa_bounds
  have hN' : (1225 : ℝ) ≤ N := by exact_mod_cast hN
  obtain ⟨v, hv⟩ : ∃ v, v = 1 / ((N : ℝ) + 1.51) := ⟨_, rfl⟩
  have hu : (0 : ℝ) < N + 1.51 := by linarith
  have hv1 : v ≤ 1 / 1226.51 := by rw [hv]; exact one_div_le_one_div_of_le (by norm_num) (by linarith)
  have hvpos : 0 < v := by rw [hv]; positivity
  have hTv : T ≤ 1.448182436952 * v ^ 2 := by
    rw [hT, hv, one_div, inv_pow, div_eq_mul_inv]
    gcongr
  have hTl : 1.448182436951 * v ^ 2 ≤ T := by
    rw [hT, hv, one_div, inv_pow, div_eq_mul_inv]
    gcongr
  have hT0 : 0 < T := by rw [hT]; positivity
  have hv2 : v ^ 2 ≤ 0.000001 := by
    have : v ≤ 0.001 := hv1.trans (by norm_num)
    nlinarith
  have hT1 : T < 1 := by linarith
  have ht0 : 0 < t := lt_of_lt_of_le (by nlinarith) b1
  have hM : (N : ℝ) * (N + 1) * v ^ 2 = 1 - 2.02 * v + 0.7701 * v ^ 2 := by
    rw [hv]; field_simp; ring
  set y := (N : ℝ) * (N + 1) * t with hy
  have hyu : y ≤ 1.449 := by
    have : t ≤ 1.448182436952 * v ^ 2 := b2.trans hTv
    have h := mul_le_mul_of_nonneg_left this (by positivity : (0 : ℝ) ≤ N * (N + 1))
    rw [← hy] at h
    nlinarith
  have htl : 1.448182436951 * v ^ 2 * (1 - 0.483 * v ^ 2) ≤ t := by
    refine le_trans ?_ b1
    have h1 : T - T ^ 2 / 3 = T * (1 - T / 3) := by ring
    rw [h1]
    exact mul_le_mul hTl (by linarith) (by linarith) hT0.le
  obtain ⟨Y, hYd⟩ : ∃ Y : ℝ, Y = 1.448182436951 * (1 - 2.02 * (1 / 1226.51) + 0.28 * (1 / 1226.51) ^ 2) := ⟨_, rfl⟩
  have hYn : 1.44579 ≤ Y := by rw [hYd]; norm_num
  have hyl : Y ≤ y := by
    have h := mul_le_mul_of_nonneg_left htl (by positivity : (0 : ℝ) ≤ N * (N + 1))
    rw [← hy, show (N : ℝ) * (N + 1) * (1.448182436951 * v ^ 2 * (1 - 0.483 * v ^ 2)) = 1.448182436951 * (N * (N + 1) * v ^ 2) * (1 - 0.483 * v ^ 2) by ring, hM] at h
    refine le_trans ?_ h
    have h3 : 0 ≤ v ^ 3 := by positivity
    have h4 : v ^ 4 ≤ 0.000001 * v ^ 2 := by
      have : v ^ 4 = v ^ 2 * v ^ 2 := by ring
      rw [this]; gcongr
    have a1 : 1 - 2.02 * v + 0.28 * v ^ 2 ≤ (1 - 2.02 * v + 0.7701 * v ^ 2) * (1 - 0.483 * v ^ 2) := by nlinarith
    have a2 : 1 - 2.02 * (1 / 1226.51) + 0.28 * (1 / 1226.51) ^ 2 ≤ 1 - 2.02 * v + 0.28 * v ^ 2 := by
      have : 0 ≤ (1 / 1226.51 - v) * (2.02 - 0.28 * (v + 1 / 1226.51)) := mul_nonneg (by linarith) (by norm_num at hv1 ⊢; linarith)
      linarith
    rw [hYd, mul_assoc]
    exact mul_le_mul_of_nonneg_left (a2.trans a1) (by norm_num)
  refine lt_of_le_of_lt (legPart_upper N (by omega) t y ht0 hy (by linarith) (by linarith)) ?_
  have s1 := bes_slope (by linarith) hyl (by linarith : y ≤ 1.45)
  have s2 : y ^ 8 / 1625702400 ≤ 1.449 ^ 8 / 1625702400 := by
    have : 0 ≤ y := by linarith
    gcongr
  have hnum : bes Y + 1.449 ^ 8 / 1625702400 < 0 := by
    rw [hYd]
    unfold bes
    norm_num
  linarith

theorem last_weight_1224 : 0 < evalLegendre 1224 (cos (137.9 * (π / 180) / (((1224 : ℕ) : ℝ) + 1.51))) := by
  refine lt_of_lt_of_le ?_ (legPart_bounds _ (abs_cos_le_one _) 4 1224).1
  have h1 := pi_gt_d20
  have h2 := pi_lt_d20
  set x := 137.9 * π / 360 / (((1224 : ℕ) : ℝ) + 1.51) with hx
  have e : (1 - cos (137.9 * (π / 180) / (((1224 : ℕ) : ℝ) + 1.51))) / 2 = sin x ^ 2 := by
    rw [show 137.9 * (π / 180) / (((1224 : ℕ) : ℝ) + 1.51) = 2 * x by rw [hx]; ring, cos_two_mul, sin_sq]
    ring
  rw [e]
  have x1 : (0.0009819622191986113889 : ℝ) ≤ x := by
    rw [hx]; norm_num; linarith
  have x2 : x ≤ (0.0009819622191986113890 : ℝ) := by
    rw [hx]; norm_num; linarith
  have hx0 : 0 < x := lt_of_lt_of_le (by norm_num) x1
  have s1 : (0.00098196206138913248 : ℝ) ≤ sin x := by
    refine le_trans ?_ (sin_ge_sub_cube hx0.le)
    have : x ^ 3 ≤ 0.0009819622191986113890 ^ 3 := by gcongr
    norm_num at this x1 ⊢
    linarith
  have s2 : sin x ≤ (0.00098196206143755841 : ℝ) := by
    have hb := (abs_le.1 (sin_bound (x := x) (by rw [abs_of_pos hx0]; linarith))).2
    rw [abs_of_pos hx0] at hb
    have a3 : (0.0009819622191986113889 : ℝ) ^ 3 ≤ x ^ 3 := by gcongr
    have a4 : x ^ 5 ≤ 0.0009819622191986113890 ^ 5 := by gcongr
    norm_num at a3 a4 x2 hb ⊢
    linarith
  set t := sin x ^ 2 with ht
  have t1 : (9.642494900075943e-7 : ℝ) ≤ t := le_trans (by norm_num) (pow_le_pow_left₀ (by norm_num) s1 2)
  have t2 : t ≤ (9.642494901026993e-7 : ℝ) := le_trans (pow_le_pow_left₀ (by linarith) s2 2) (by norm_num)
  have ht0 : 0 ≤ t := by linarith
  have u3 : t ^ 3 ≤ 9.642494901026993e-7 ^ 3 := by gcongr
  have u5 : t ^ 5 ≤ 9.642494901026993e-7 ^ 5 := by gcongr
  have u7 : t ^ 7 ≤ 9.642494901026993e-7 ^ 7 := by gcongr
  have u9 : t ^ 9 ≤ 9.642494901026993e-7 ^ 9 := by gcongr
  have l2 : (9.642494900075943e-7 : ℝ) ^ 2 ≤ t ^ 2 := by gcongr
  have l4 : (9.642494900075943e-7 : ℝ) ^ 4 ≤ t ^ 4 := by gcongr
  have l6 : (9.642494900075943e-7 : ℝ) ^ 6 ≤ t ^ 6 := by gcongr
  have l8 : (9.642494900075943e-7 : ℝ) ^ 8 ≤ t ^ 8 := by gcongr
  clear_value t
  rw [show 2 * 4 + 1 = 9 by norm_num]
  simp only [legPart, Finset.sum_range_succ, Finset.sum_range_zero, Nat.factorial, legQ]
  norm_num at t2 u3 u5 u7 u9 l2 l4 l6 l8 ⊢
  linarith

/-- **C111** The weights of order `N` are all positive exactly up to order 1224; beyond, the last one is negative: there the rule
`137.9°/(N+1.51)` overshoots the zero of the Legendre polynomial. -/
theorem C111_positive_iff (N : ℕ) : ((∀ w ∈ maxREWeights N, 0 < w) ↔ N ≤ 1224) ∧
    (1224 < N → (maxREWeights N).getD N 0 < 0) := by
  have hneg : 1224 < N → (maxREWeights N).getD N 0 < 0 := by
    intro h
    rw [maxre_get N N le_rfl]
    exact last_weight_neg N h
  have hlen := (C111_decreasing N).1
  refine ⟨⟨fun h => ?_, fun h w hw => ?_⟩, hneg⟩
  · by_contra hN
    have h1 := hneg (by omega)
    have h2 := h ((maxREWeights N).getD N 0) (by
      rw [List.getD_eq_getElem?_getD, List.getElem?_eq_getElem (by omega), Option.getD_some]
      exact List.getElem_mem _)
    linarith
  · obtain ⟨n, hn, rfl⟩ := List.getElem_of_mem hw
    have hn' : n ≤ N := by omega
    have e : (maxREWeights N)[n] = (maxREWeights N).getD n 0 := by
      rw [List.getD_eq_getElem?_getD, List.getElem?_eq_getElem hn, Option.getD_some]
    rw [e]
    rcases Nat.lt_or_ge N 7 with h7 | h7
    · exact maxre_positive_low N (by omega) n hn'
    refine lt_of_lt_of_le ?_ (maxre_antitone N n hn')
    rw [maxre_get N N le_rfl]
    rcases Nat.lt_or_ge N 1224 with h1 | h1
    · exact last_weight_pos N h7 (by omega)
    · have : N = 1224 := by omega
      subst this
      exact last_weight_1224

example : ∀ w ∈ maxREWeights 1000, 0 < w := (C111_positive_iff 1000).1.2 (by norm_num)
example : (maxREWeights 1300).getD 1300 0 < 0 := (C111_positive_iff 1300).2 (by norm_num)

end Verif.Props
