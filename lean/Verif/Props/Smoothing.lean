import Verif.Props.ProcessSignals
import Verif.Props.PlotSpectra
import Mathlib.Tactic

/-!
C57 and C117, values of fractional octave smoothing: the exact weighted means, and the smoothed curves of `plot.freq_resp`.
-/

namespace Verif.Props
open Real Verif.Process Verif.Plot

/-- Weight `i` of the symmetric Hamming window of `M` samples (one sample: weight one), or of the rectangular window. -/
noncomputable def meanWeight (weighted : Bool) (M i : ℕ) : ℝ :=
  if weighted ∧ M ≠ 1 then 0.54 - 0.46 * cos (2 * π * i / (M - 1)) else 1

theorem winOf_getD (weighted : Bool) (M i : ℕ) (hi : i < M) : (winOf weighted M).getD i 0 = meanWeight weighted M i := by
  unfold winOf meanWeight
  cases weighted
  · simp [List.getD_eq_getElem?_getD, hi]
  · simp only [if_true, true_and]
    unfold hamming
    rw [if_neg (by omega)]
    by_cases h1 : M = 1
    · subst h1
      obtain rfl : i = 0 := by omega
      simp
    · rw [if_neg h1, if_pos h1]
      have hM : (M : ℝ) - 1 ≠ 0 := by
        have : (M : ℝ) ≠ 1 := by exact_mod_cast h1
        exact sub_ne_zero.2 this
      simp only [List.getD_eq_getElem?_getD, List.getElem?_map, List.getElem?_range hi, Option.map_some, Option.getD_some]
      rw [show π * (1 - (M : ℝ) + 2 * i) / (M - 1) = 2 * π * i / (M - 1) - π by field_simp; ring, cos_sub_pi]
      ring

theorem zip_sum_range (w l : List ℝ) (h : w.length = l.length) :
    (List.zipWith (· * ·) w l).sum = ∑ i ∈ Finset.range w.length, w.getD i 0 * l.getD i 0 := by
  induction w generalizing l with
  | nil => simp
  | cons a w ih =>
    cases l with
    | nil => simp at h
    | cons b l =>
      rw [List.zipWith_cons_cons, List.sum_cons, ih l (by simpa using h), List.length_cons, Finset.sum_range_succ']
      simp only [List.getD_cons_succ, List.getD_cons_zero]
      ring

theorem list_sum_getD (w : List ℝ) : w.sum = ∑ i ∈ Finset.range w.length, w.getD i 0 := by
  induction w with
  | nil => simp
  | cons a w ih =>
    rw [List.sum_cons, ih, List.length_cons, Finset.sum_range_succ']
    simp only [List.getD_cons_succ, List.getD_cons_zero]
    ring

/-- **C57** Bin `k` becomes the mean of the bins from `⌊k / 2^(1/2n)⌋` up to (excluding) `⌈k 2^(1/2n)⌉`, at least one bin and not beyond the spectrum, with the
weights of a Hamming window, or all weights equal. -/
theorem C57_mean (a : List ℝ) (sn : ℝ) (hs : 0 < sn) (weighted : Bool) (k : ℕ) (hk : k < a.length) :
    ∃ lo hi : ℕ, (lo : ℤ) = ⌊k / (2 : ℝ) ^ (1 / (2 * sn))⌋ ∧ (hi : ℤ) = min (max ⌈k * (2 : ℝ) ^ (1 / (2 * sn))⌉ 1) a.length ∧
      lo ≤ k ∧ k < hi ∧ hi ≤ a.length ∧ 0 < ∑ i ∈ Finset.range (hi - lo), meanWeight weighted (hi - lo) i ∧
      (∑ i ∈ Finset.range (hi - lo), meanWeight weighted (hi - lo) i) * (fracOctaveSmoothing a sn weighted).getD k 0
        = ∑ i ∈ Finset.range (hi - lo), meanWeight weighted (hi - lo) i * a.getD (lo + i) 0 := by
  obtain ⟨lo, hi, ⟨h1, h2, h3, h4, h5⟩, h6⟩ := smoothAt_eq a sn hs weighted k hk
  have hwl := winOf_length weighted (hi - lo)
  have hsum : (winOf weighted (hi - lo)).sum = ∑ i ∈ Finset.range (hi - lo), meanWeight weighted (hi - lo) i := by
    rw [list_sum_getD, hwl]
    exact Finset.sum_congr rfl fun i hi => winOf_getD _ _ _ (Finset.mem_range.1 hi)
  have hpos : 0 < (winOf weighted (hi - lo)).sum :=
    sum_pos_of_pos _ (by rw [← List.length_pos_iff, hwl]; omega) (winOf_pos weighted _)
  refine ⟨lo, hi, h1.symm, h2.symm, h3, h4, h5, hsum ▸ hpos, ?_⟩
  rw [smoothing_getD a sn weighted k hk, h6, ← hsum, ← mul_assoc, mul_one_div_cancel hpos.ne', one_mul,
    zip_sum_range _ _ (by rw [hwl]; simp; omega), hwl]
  refine Finset.sum_congr rfl fun i hi' => ?_
  have hi' := Finset.mem_range.1 hi'
  rw [winOf_getD _ _ _ hi']
  congr 1
  simp only [List.getD_eq_getElem?_getD, List.getElem?_drop]
  rw [List.getElem?_take_of_lt (by omega)]

/-- Weights of three bins: 0.08, 1, 0.08, or one each. -/
example : meanWeight true 3 0 = 0.08 ∧ meanWeight true 3 1 = 1 ∧ meanWeight false 3 1 = 1 := by
  refine ⟨by norm_num [meanWeight], ?_, by norm_num [meanWeight]⟩
  rw [meanWeight, if_pos (by norm_num), show 2 * π * ((1 : ℕ) : ℝ) / (((3 : ℕ) : ℝ) - 1) = π by push_cast; ring, cos_pi]
  norm_num

/-- **C117** With smoothing every curve is drawn as the Hamming weighted fractional octave means of its values (in dB, if asked: the mean is taken over the
levels). -/
theorem C117_smoothing (freq : List ℝ) (mag : List (List ℝ)) (n : ℤ) (hn : 0 < n) (ylim : YLim) (labels : Labels) (todb : Bool) (d : Curves)
    (h : freqResp freq mag todb (some n) ylim labels = .ok d) (m k : ℕ) (hm : m < mag.length) (hk : k < freq.length) :
    ∃ lo hi : ℕ, (lo : ℤ) = ⌊k / (2 : ℝ) ^ (1 / (2 * (n : ℝ)))⌋ ∧ (hi : ℤ) = min (max ⌈k * (2 : ℝ) ^ (1 / (2 * (n : ℝ)))⌉ 1) freq.length ∧
      lo ≤ k ∧ k < hi ∧ hi ≤ freq.length ∧ 0 < ∑ i ∈ Finset.range (hi - lo), meanWeight true (hi - lo) i ∧
      (∑ i ∈ Finset.range (hi - lo), meanWeight true (hi - lo) i) * (d.curves.getD m []).getD k 0
        = ∑ i ∈ Finset.range (hi - lo), meanWeight true (hi - lo) i *
          (let v := (mag.getD m []).getD (lo + i) 0; if todb then 20 * logb 10 (max |v| 10e-15) else v) := by
  have hd : (∀ a ∈ mag, a.length = freq.length) ∧ d.curves = respCurves mag todb (some n) := by
    unfold freqResp at h
    split at h
    · rename_i hl
      refine ⟨hl, ?_⟩
      simp only at h
      cases hlg : legendOf labels (respCurves mag todb (some n)).length (some n) with
      | error e => rw [hlg] at h; cases h
      | ok lg =>
        rw [hlg] at h
        cases ylim with
        | below r =>
          simp only [Except.bind] at h
          cases hmx : npMax (respCurves mag todb (some n)).flatten with
          | error e => rw [hmx] at h; cases h
          | ok v => rw [hmx] at h; obtain rfl := Except.ok.inj h; rfl
        | limits lo hi => obtain rfl := Except.ok.inj h; rfl
    · cases h
  obtain ⟨hl, hc⟩ := hd
  have hlm : (mag.getD m []).length = freq.length := by
    rw [List.getD_eq_getElem?_getD, List.getElem?_eq_getElem hm]
    exact hl _ (List.getElem_mem hm)
  set a : List ℝ := if todb then (mag.getD m []).map dbClipped else mag.getD m [] with ha
  have hal : a.length = freq.length := by
    rw [ha]; split
    · rw [List.length_map, hlm]
    · exact hlm
  have hcm : d.curves.getD m [] = fracOctaveSmoothing a n true := by
    rw [hc, ha]
    unfold respCurves
    cases todb <;> simp [List.getD_eq_getElem?_getD, hm]
  obtain ⟨lo, hi, h1, h2, h3, h4, h5, h6, h7⟩ := C57_mean a n (by exact_mod_cast hn) true k (by omega)
  refine ⟨lo, hi, h1, by rw [h2, hal], h3, h4, by omega, h6, ?_⟩
  rw [hcm, h7]
  refine Finset.sum_congr rfl fun i hi' => ?_
  congr 1
  have hi' := Finset.mem_range.1 hi'
  have hlt : lo + i < (mag.getD m []).length := by omega
  rw [ha]
  cases todb
  · rfl
  · simp only [if_true]
    generalize mag.getD m [] = l at hlt
    simp only [List.getD_eq_getElem?_getD, List.getElem?_map, List.getElem?_eq_getElem hlt, Option.map_some, Option.getD_some]
    unfold dbClipped
    rw [Utils.db, abs_of_nonneg (le_max_of_le_right (by norm_num))]
    simp

/-- `C117_smoothing`: two curves of three values, third octaves. -/
example : ∃ d, freqResp [100, 200, 300] [[1, 2, 3], [3, 1, 2]] false (some 3) (.limits 0 4) = .ok d ∧ ∃ lo hi : ℕ, lo ≤ 2 ∧ 2 < hi ∧ hi ≤ 3 ∧
    (∑ i ∈ Finset.range (hi - lo), meanWeight true (hi - lo) i) * (d.curves.getD 1 []).getD 2 0
      = ∑ i ∈ Finset.range (hi - lo), meanWeight true (hi - lo) i * ([3, 1, (2 : ℝ)]).getD (lo + i) 0 := by
  have h : ∃ d, freqResp [100, 200, 300] [[1, 2, 3], [3, 1, 2]] false (some 3) (.limits 0 4) = .ok d := by
    unfold freqResp
    rw [if_pos (by simp)]
    exact ⟨_, rfl⟩
  obtain ⟨d, hd⟩ := h
  obtain ⟨lo, hi, -, -, h1, h2, h3, -, h4⟩ := C117_smoothing _ _ 3 (by norm_num) _ _ _ d hd 1 2 (by simp) (by simp)
  exact ⟨d, hd, lo, hi, h1, h2, by simpa using h3, by simpa using h4⟩

end Verif.Props
