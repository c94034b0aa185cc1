import Mathlib.Analysis.SpecialFunctions.Pow.Continuity
import Mathlib.Analysis.SpecialFunctions.Pow.Asymptotics
import Verif.Props.ModalWeights

/-!
C183: shape and limits of the Butterworth weights.
-/

namespace Verif.Sph
open Real Filter Topology

/-- The weight of order `n` before the division by the gain in steering direction. -/
noncomputable def bwAt (k nc : ℝ) (n : ℕ) : ℝ := 1 / √(1 + ((n : ℝ) / nc) ^ (2 * k))

theorem bwAt_pos {k nc : ℝ} (hnc : 0 < nc) (n : ℕ) : 0 < bwAt k nc n := by
  have : 0 ≤ ((n : ℝ) / nc) ^ (2 * k) := rpow_nonneg (by positivity) _
  unfold bwAt; positivity

/-- Sum of the weights times the numbers of channels of their orders. -/
noncomputable def bwSum (N : ℕ) (k nc : ℝ) : ℝ := ∑ n ∈ Finset.range (N + 1), (2 * (n : ℝ) + 1) * bwAt k nc n

theorem bwSum_pos (N : ℕ) {k nc : ℝ} (hnc : 0 < nc) : 0 < bwSum N k nc := by
  refine Finset.sum_pos (fun n _ => ?_) ⟨0, by simp⟩
  have := bwAt_pos (k := k) hnc n
  positivity

theorem bw_list (N : ℕ) (k nc : ℝ) (u : Bool) :
    butterworthWeights N k nc u = .ok ((List.range (N + 1)).map fun n => bwAt k nc n / (if u then bwSum N k nc / (4 * π) else 1)) := by
  cases u
  · exact ((unitAmp_eq N _).2).trans (by simp [bwAt])
  · refine ((unitAmp_eq N _).1).trans ?_
    rw [steeringGain_range, List.map_map]
    simp only [if_true, bwSum, bwAt]
    rfl

theorem getD_range_map (N : ℕ) (f : ℕ → ℝ) {n : ℕ} (hn : n ≤ N) : ((List.range (N + 1)).map f).getD n 0 = f n := by
  simp [List.getElem?_range (show n < N + 1 by omega)]

/-- **C183** The weights are positive and fall with the order, to `1/√2` of the first one exactly at the cut-on order: below it they are
larger, above it smaller. -/
theorem C183_shape (N : ℕ) (k nc : ℝ) (u : Bool) (hk : 0 < k) (hnc : 0 < nc) :
    ∃ w, butterworthWeights N k nc u = .ok w ∧ w.length = N + 1 ∧ (u = false → w.getD 0 0 = 1) ∧ (∀ n ≤ N, 0 < w.getD n 0) ∧
      (∀ n m, n < m → m ≤ N → w.getD m 0 < w.getD n 0) ∧
      ∀ n ≤ N, ((n : ℝ) = nc → w.getD n 0 = w.getD 0 0 / √2) ∧ ((n : ℝ) < nc → w.getD 0 0 / √2 < w.getD n 0) ∧
        (nc < n → w.getD n 0 < w.getD 0 0 / √2) := by
  refine ⟨_, bw_list N k nc u, by simp, ?_, ?_, ?_, ?_⟩
  all_goals
    set a : ℝ := if u then bwSum N k nc / (4 * π) else 1 with ha
    have hapos : 0 < a := by
      rw [ha]; split_ifs
      · have := bwSum_pos N (k := k) hnc; positivity
      · exact one_pos
    have h0 : bwAt k nc 0 = 1 := by
      rw [bwAt, Nat.cast_zero, zero_div, zero_rpow (by positivity)]; simp
  · rintro rfl
    rw [getD_range_map N _ (Nat.zero_le _), h0, ha]; simp
  · intro n hn
    rw [getD_range_map N _ hn]
    exact div_pos (bwAt_pos hnc n) hapos
  · intro n m hnm hm
    rw [getD_range_map N _ hm, getD_range_map N _ (by omega)]
    refine div_lt_div_of_pos_right ?_ hapos
    have hb : 0 ≤ ((n : ℝ) / nc) ^ (2 * k) := rpow_nonneg (by positivity) _
    have hlt : ((n : ℝ) / nc) ^ (2 * k) < ((m : ℝ) / nc) ^ (2 * k) := by
      refine rpow_lt_rpow (by positivity) ?_ (by positivity)
      exact div_lt_div_of_pos_right (by exact_mod_cast hnm) hnc
    exact one_div_lt_one_div_of_lt (sqrt_pos.2 (by positivity)) (sqrt_lt_sqrt (by positivity) (by linarith))
  · intro n hn
    rw [getD_range_map N _ hn, getD_range_map N _ (Nat.zero_le _), h0]
    have hs : 1 / a / √2 = 1 / √(1 + 1) / a := by norm_num; ring
    have hb : 0 ≤ ((n : ℝ) / nc) ^ (2 * k) := rpow_nonneg (by positivity) _
    rw [hs]
    refine ⟨fun h => ?_, fun h => ?_, fun h => ?_⟩
    · rw [bwAt, h, div_self hnc.ne', one_rpow]
    · refine div_lt_div_of_pos_right ?_ hapos
      have : ((n : ℝ) / nc) ^ (2 * k) < 1 := rpow_lt_one (by positivity) ((div_lt_one hnc).2 h) (by positivity)
      exact one_div_lt_one_div_of_lt (sqrt_pos.2 (by positivity)) (sqrt_lt_sqrt (by positivity) (by linarith))
    · refine div_lt_div_of_pos_right ?_ hapos
      have : 1 < ((n : ℝ) / nc) ^ (2 * k) := one_lt_rpow ((one_lt_div hnc).2 h) (by positivity)
      exact one_div_lt_one_div_of_lt (sqrt_pos.2 (by positivity)) (sqrt_lt_sqrt (by positivity) (by linarith))

/-- **C183** The slope: above the cut-on order the weights fall by `6k` dB per doubling of the order, they lie below `(n_c/n)^k` of the first one and
at most 3 dB below that line. -/
theorem C183_slope (N : ℕ) (k nc : ℝ) (u : Bool) (hk : 0 < k) (hnc : 0 < nc) :
    ∃ w, butterworthWeights N k nc u = .ok w ∧ ∀ n, 1 ≤ n → n ≤ N →
      w.getD n 0 < w.getD 0 0 * (nc / n) ^ k ∧ (nc ≤ n → w.getD 0 0 * (nc / n) ^ k / √2 ≤ w.getD n 0) := by
  refine ⟨_, bw_list N k nc u, fun n h1 hn => ?_⟩
  set a : ℝ := if u then bwSum N k nc / (4 * π) else 1 with ha
  have hapos : 0 < a := by
    rw [ha]; split_ifs
    · have := bwSum_pos N (k := k) hnc; positivity
    · exact one_pos
  have h0 : bwAt k nc 0 = 1 := by
    rw [bwAt, Nat.cast_zero, zero_div, zero_rpow (by positivity)]; simp
  rw [getD_range_map N _ hn, getD_range_map N _ (Nat.zero_le _), h0]
  have hn0 : (0 : ℝ) < n := by exact_mod_cast h1
  set y : ℝ := ((n : ℝ) / nc) ^ k with hy
  have hypos : 0 < y := rpow_pos_of_pos (by positivity) _
  have hinv : (nc / (n : ℝ)) ^ k = 1 / y := by
    rw [hy, one_div, ← inv_rpow (by positivity), inv_div]
  have hbw : bwAt k nc n = 1 / √(1 + y ^ 2) := by
    rw [bwAt, hy, mul_comm 2 k, rpow_mul (by positivity)]; norm_cast
  rw [hinv, hbw]
  refine ⟨?_, fun hle => ?_⟩
  · rw [div_mul_eq_mul_div, one_mul]
    refine div_lt_div_of_pos_right (one_div_lt_one_div_of_lt hypos ?_) hapos
    exact lt_sqrt_of_sq_lt (by linarith)
  · have hy1 : 1 ≤ y := one_le_rpow ((one_le_div hnc).2 hle) hk.le
    rw [show 1 / a * (1 / y) / √2 = 1 / (√2 * y) / a by field_simp]
    refine div_le_div_of_nonneg_right (one_div_le_one_div_of_le (by positivity) ?_) hapos.le
    rw [sqrt_le_left (by positivity), mul_pow, sq_sqrt (by norm_num)]
    nlinarith

/-- **C183** A filter of order zero makes a hyper-cardioid. -/
theorem C183_order_zero (N : ℕ) (nc : ℝ) (_hnc : 0 < nc) : butterworthWeights N 0 nc = .ok (hypercardioidWeights N) := by
  have hb : ∀ n, bwAt 0 nc n = 1 / √2 := fun n => by rw [bwAt, mul_zero, rpow_zero]; norm_num
  rw [bw_list]
  congr 1
  unfold hypercardioidWeights
  rw [← List.length_range (n := N + 1), ← List.map_const', List.length_range]
  refine List.map_congr_left fun n _ => ?_
  simp only [if_true, bwSum, hb, ← Finset.sum_mul, sum_odd]
  have : (√2 : ℝ) ≠ 0 := by positivity
  push_cast
  field_simp

/-- Weights whose raw values tend to one up to order `M` and to zero above tend, made unit amplitude, to those of the hyper-cardioid of order `M`. -/
theorem bw_tendsto {ι : Type*} {l : Filter ι} (N M : ℕ) (hM : M ≤ N) (k nc : ι → ℝ)
    (h : ∀ n ≤ N, Tendsto (fun i => bwAt (k i) (nc i) n) l (𝓝 (if n ≤ M then 1 else 0))) (n : ℕ) (hn : n ≤ N) :
    Tendsto (fun i => ((List.range (N + 1)).map fun n => bwAt (k i) (nc i) n / (bwSum N (k i) (nc i) / (4 * π))).getD n 0) l
      (𝓝 ((hypercardioidWeights M).getD n 0)) := by
  have hsum : Tendsto (fun i => bwSum N (k i) (nc i)) l (𝓝 (((M : ℝ) + 1) ^ 2)) := by
    have h1 : Tendsto (fun i => bwSum N (k i) (nc i)) l (𝓝 (∑ n ∈ Finset.range (N + 1), (2 * (n : ℝ) + 1) * (if n ≤ M then 1 else 0))) :=
      tendsto_finsetSum _ fun n hn => (h n (by rw [Finset.mem_range] at hn; omega)).const_mul _
    have h2 : ∑ n ∈ Finset.range (N + 1), (2 * (n : ℝ) + 1) * (if n ≤ M then 1 else 0) = ((M : ℝ) + 1) ^ 2 := by
      have h3 := sum_odd (M + 1)
      push_cast at h3
      rw [← h3]
      simp only [mul_ite, mul_one, mul_zero]
      rw [← Finset.sum_filter]
      refine Finset.sum_congr ?_ fun _ _ => rfl
      ext j; simp only [Finset.mem_filter, Finset.mem_range]; omega
    rwa [h2] at h1
  have e : (hypercardioidWeights M).getD n 0 = (if n ≤ M then 1 else 0) / (((M : ℝ) + 1) ^ 2 / (4 * π)) := by
    unfold hypercardioidWeights
    by_cases hnM : n ≤ M
    · simp [List.getElem?_replicate, Nat.lt_succ_of_le hnM, hnM]
    · simp [List.getElem?_replicate, hnM, show ¬ n < M + 1 by omega]
  rw [e]
  simp only [getD_range_map N _ hn]
  exact (h n hn).div (hsum.div_const _) (by positivity)

/-- **C183** The steeper the filter, the more it is the hyper-cardioid of the last order below the cut-on order. -/
theorem C183_steep (N M : ℕ) (hM : M ≤ N) (nc : ℝ) (h1 : (M : ℝ) < nc) (h2 : nc < M + 1) :
    ∃ w : ℝ → List ℝ, (∀ k, 0 ≤ k → butterworthWeights N k nc = .ok (w k)) ∧
      ∀ n ≤ N, Tendsto (fun k => (w k).getD n 0) atTop (𝓝 ((hypercardioidWeights M).getD n 0)) := by
  have hnc : 0 < nc := lt_of_le_of_lt (Nat.cast_nonneg M) h1
  refine ⟨_, fun k _ => bw_list N k nc true, fun n hn => ?_⟩
  simp only [if_true]
  refine bw_tendsto N M hM (fun k => k) (fun _ => nc) (fun n _ => ?_) n hn
  have hk : Tendsto (fun k : ℝ => 2 * k) atTop atTop := tendsto_id.const_mul_atTop two_pos
  by_cases hnM : n ≤ M
  · rw [if_pos hnM]
    have hx : (n : ℝ) / nc < 1 := (div_lt_one hnc).2 (lt_of_le_of_lt (by exact_mod_cast hnM) h1)
    have hx0 : 0 ≤ (n : ℝ) / nc := by positivity
    have ht := (tendsto_rpow_atTop_of_base_lt_one _ (by linarith) hx).comp hk
    have h3 := ((ht.const_add 1).sqrt).inv₀ (by simp)
    simpa [bwAt, Function.comp_def] using h3
  · rw [if_neg hnM]
    have hx : 1 < (n : ℝ) / nc := (one_lt_div hnc).2 (lt_of_lt_of_le h2 (by exact_mod_cast (by omega : M + 1 ≤ n)))
    have ht := (tendsto_rpow_atTop_of_base_gt_one _ hx).comp hk
    have h3 := tendsto_inv_atTop_zero.comp (tendsto_sqrt_atTop.comp (tendsto_atTop_add_const_left _ (1 : ℝ) ht))
    simpa [bwAt, Function.comp_def] using h3

/-- **C183** With a growing cut-on order the weights tend to those of the hyper-cardioid of the full order. -/
theorem C183_wide (N : ℕ) (k : ℝ) (hk : 0 < k) :
    ∃ w : ℝ → List ℝ, (∀ nc, 0 < nc → butterworthWeights N k nc = .ok (w nc)) ∧
      ∀ n ≤ N, Tendsto (fun nc => (w nc).getD n 0) atTop (𝓝 ((hypercardioidWeights N).getD n 0)) := by
  refine ⟨_, fun nc _ => bw_list N k nc true, fun n hn => ?_⟩
  simp only [if_true]
  refine bw_tendsto N N le_rfl (fun _ => k) (fun nc => nc) (fun n hn => ?_) n hn
  rw [if_pos hn]
  have h0 : Tendsto (fun nc : ℝ => (n : ℝ) / nc) atTop (𝓝 0) := tendsto_const_nhds.div_atTop tendsto_id
  have h1 := (continuousAt_rpow_const 0 (2 * k) (Or.inr (by positivity))).tendsto.comp h0
  rw [zero_rpow (by positivity)] at h1
  have h3 := ((h1.const_add 1).sqrt).inv₀ (by simp)
  simpa [bwAt, Function.comp_def] using h3

/-- The weights of the documentation example: order five, filter order five, cut-on order three. -/
example : ∃ w, butterworthWeights 5 5 3 = .ok w ∧ w.getD 3 0 = w.getD 0 0 / √2 ∧ w.getD 0 0 / √2 < w.getD 2 0 ∧ w.getD 4 0 < w.getD 0 0 / √2 := by
  obtain ⟨w, h, -, -, -, -, hc⟩ := C183_shape 5 5 3 true (by norm_num) (by norm_num)
  exact ⟨w, h, (hc 3 (by norm_num)).1 (by norm_num), (hc 2 (by norm_num)).2.1 (by norm_num), (hc 4 (by norm_num)).2.2 (by norm_num)⟩

/-- `C183_slope`: six dB per doubling for a filter of order one. -/
example : ∃ w, butterworthWeights 4 1 2 false = .ok w ∧ ∀ n, 1 ≤ n → n ≤ 4 →
    w.getD n 0 < w.getD 0 0 * (2 / n) ^ (1 : ℝ) ∧ ((2 : ℝ) ≤ n → w.getD 0 0 * (2 / n) ^ (1 : ℝ) / √2 ≤ w.getD n 0) :=
  C183_slope 4 1 2 false (by norm_num) (by norm_num)

/-- `C183_steep`: a cut-on order between two and three. -/
example : ∃ w : ℝ → List ℝ, (∀ k, 0 ≤ k → butterworthWeights 5 k (5 / 2) = .ok (w k)) ∧
    ∀ n ≤ 5, Tendsto (fun k => (w k).getD n 0) atTop (𝓝 ((hypercardioidWeights 2).getD n 0)) :=
  C183_steep 5 2 (by norm_num) (5 / 2) (by norm_num) (by norm_num)

example : ∃ w : ℝ → List ℝ, (∀ nc, 0 < nc → butterworthWeights 3 2 nc = .ok (w nc)) ∧
    ∀ n ≤ 3, Tendsto (fun nc => (w nc).getD n 0) atTop (𝓝 ((hypercardioidWeights 3).getD n 0)) :=
  C183_wide 3 2 (by norm_num)

end Verif.Sph
