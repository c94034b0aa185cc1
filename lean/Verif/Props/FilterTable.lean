import Verif.Proofs.PostEq
import Verif.Props.Filterbank

/-! The frequency table of the filter bank (C81) and the block sizes derived from it (C71). -/

namespace Verif.Props
open Parsa Process Real

theorem centers_get (n fHigh f : ℝ) (l : List ℝ) (h : Centers n fHigh f l) :
    0 < l.length ∧ (∀ i < l.length, l.getD i 0 = f * (2 ^ (1 / n)) ^ i) ∧ ∀ i, i + 1 < l.length → l.getD i 0 * 2 ^ (1 / (2 * n)) < fHigh := by
  induction h with
  | stop f h => simp
  | step f l hlt _ ih =>
    obtain ⟨h1, h2, h3⟩ := ih
    refine ⟨by simp, fun i hi => ?_, fun i hi => ?_⟩
    · rcases i with _ | i
      · simp
      · rw [List.getD_cons_succ, h2 i (by simpa using hi), pow_succ]
        ring
    · rcases i with _ | i
      · simpa using hlt
      · rw [List.getD_cons_succ]
        exact h3 i (by simpa using hi)

/-- The rows of the table. -/
theorem ffTable_rows (n fs : ℝ) (fc : List ℝ) (h0 : 0 < fc.length) :
    (ffTable n fs fc).length = fc.length + 1 ∧
    (ffTable n fs fc).getD 0 0 = (0, √(fc.getD 0 0 / 2 ^ (1 / (2 * n))), fc.getD 0 0 / 2 ^ (1 / (2 * n))) ∧
    (∀ i, i + 1 < fc.length → (ffTable n fs fc).getD (i + 1) 0 = (fc.getD i 0 / 2 ^ (1 / (2 * n)), fc.getD i 0, fc.getD i 0 * 2 ^ (1 / (2 * n)))) ∧
    (ffTable n fs fc).getD fc.length 0 = (fc.getD (fc.length - 1) 0 / 2 ^ (1 / (2 * n)), √(fc.getD (fc.length - 1) 0 / 2 ^ (1 / (2 * n)) * (fs / 2)), fs / 2) := by
  have hd : (fc.dropLast.map (ffRow n)).length = fc.length - 1 := by simp
  refine ⟨?_, ?_, fun i hi => ?_, ?_⟩
  · simp [ffTable]; omega
  · simp [ffTable, ffRow]
  · unfold ffTable
    simp only [List.getD_cons_succ]
    rw [List.getD_eq_getElem?_getD, List.getElem?_append_left (by omega), List.getElem?_map, List.getElem?_dropLast, if_pos (by omega),
      List.getElem?_eq_getElem (by omega), List.getD_eq_getElem?_getD, List.getElem?_eq_getElem (by omega)]
    rfl
  · obtain ⟨m, hm⟩ : ∃ m, fc.length = m + 1 := ⟨fc.length - 1, by omega⟩
    unfold ffTable
    simp only [hm, List.getD_cons_succ]
    rw [List.getD_eq_getElem?_getD, List.getElem?_append_right (by omega), hd, show m - (fc.length - 1) = 0 by omega]
    simp [ffRow]

/-- **C81**: the bands of the filter bank tile the spectrum: the first begins at 0, every band begins where the previous one ends, the last ends at
half the sampling rate. -/
theorem C81_contiguous (n fs fLow fHigh : ℝ) (fc : List ℝ) (hn : 1 ≤ n) (h : Centers n fHigh fLow fc) :
    (ffTable n fs fc).length = fc.length + 1 ∧ ((ffTable n fs fc).getD 0 0).1 = 0 ∧ ((ffTable n fs fc).getD fc.length 0).2.2 = fs / 2 ∧
    ∀ i < fc.length, ((ffTable n fs fc).getD i 0).2.2 = ((ffTable n fs fc).getD (i + 1) 0).1 := by
  obtain ⟨h0, hget, -⟩ := centers_get n fHigh fLow fc h
  obtain ⟨r1, r2, r3, r4⟩ := ffTable_rows n fs fc h0
  obtain ⟨hw1, -, hw3⟩ := width_facts n hn
  have hr : (2 : ℝ) ^ (1 / (2 * n)) ≠ 0 := by positivity
  refine ⟨r1, by rw [r2], by rw [r4], fun i hi => ?_⟩
  have hlo : ((ffTable n fs fc).getD (i + 1) 0).1 = fc.getD i 0 / 2 ^ (1 / (2 * n)) := by
    by_cases hl : i + 1 < fc.length
    · rw [r3 i hl]
    · rw [show i + 1 = fc.length by omega, r4, show fc.length - 1 = i by omega]
  rw [hlo]
  rcases i with _ | i
  · rw [r2]
  · rw [r3 i hi, hget i (by omega), hget (i + 1) hi, pow_succ, hw3]
    field_simp

/-- `C81_contiguous` for a single centre. -/
example : ((ffTable 1 48000 [1]).getD 0 0).2.2 = ((ffTable 1 48000 [1]).getD 1 0).1 :=
  (C81_contiguous 1 48000 1 1 [1] le_rfl (.stop 1 (by
    have := (width_facts 1 le_rfl).1
    rw [one_mul]
    linarith))).2.2.2 0 (by simp)

/-- **C81**: every band is non-empty and its centre frequency lies strictly inside it, if the lowest band edge is above 1 Hz and below half the sampling
rate. -/
theorem C81_inside (n fs fLow : ℝ) (fHigh : Option ℝ) (fc : List ℝ) (hn : 1 ≤ n) (h : Centers n (filterHigh fs fHigh) fLow fc)
    (h1 : 1 < fLow / 2 ^ (1 / (2 * n))) (h2 : fLow / 2 ^ (1 / (2 * n)) < fs / 2) (i : ℕ) (hi : i ≤ fc.length) :
    ((ffTable n fs fc).getD i 0).1 < ((ffTable n fs fc).getD i 0).2.1 ∧ ((ffTable n fs fc).getD i 0).2.1 < ((ffTable n fs fc).getD i 0).2.2 := by
  obtain ⟨h0, hget, hlt⟩ := centers_get _ _ _ fc h
  obtain ⟨r1, r2, r3, r4⟩ := ffTable_rows n fs fc h0
  obtain ⟨hw1, -, hw3⟩ := width_facts n hn
  set r : ℝ := 2 ^ (1 / (2 * n)) with hr
  have hr0 : 0 < r := by linarith
  have hf : 0 < fLow := by
    have := (lt_div_iff₀ hr0).mp h1
    linarith
  have hpos : ∀ j < fc.length, 0 < fc.getD j 0 := fun j hj => by
    rw [hget j hj]
    positivity
  have hhigh : filterHigh fs fHigh ≤ fs / 2 := by
    unfold filterHigh
    rcases fHigh with _ | f
    · exact Int.floor_le _
    · exact le_trans (min_le_right _ _) (Int.floor_le _)
  rcases i with _ | i
  · rw [r2, hget 0 h0, pow_zero, mul_one]
    refine ⟨Real.sqrt_pos.mpr (by linarith), ?_⟩
    rw [Real.sqrt_lt' (by linarith)]
    nlinarith
  · by_cases hl : i + 1 < fc.length
    · rw [r3 i hl]
      have hp := hpos i (by omega)
      exact ⟨div_lt_self hp hw1, by nlinarith⟩
    · have hil : i + 1 = fc.length := by omega
      rw [hil, r4, show fc.length - 1 = i by omega]
      set lo := fc.getD i 0 / r with hlo
      have hlo0 : 0 < lo := div_pos (hpos i (by omega)) hr0
      have hlo1 : lo < fs / 2 := by
        rcases i with _ | j
        · rw [hlo, hget 0 h0, pow_zero, mul_one]
          exact h2
        · have h3 := hlt j (by omega)
          have h4 : lo = fc.getD j 0 * r := by
            rw [hlo, hget (j + 1) (by omega), hget j (by omega), pow_succ, hw3]
            field_simp
          rw [h4]
          linarith
      constructor
      · rw [Real.lt_sqrt hlo0.le]
        nlinarith
      · rw [Real.sqrt_lt' (by linarith)]
        nlinarith

/-- Octave bands from 62.5 Hz at 48 kHz. -/
example : (1 : ℝ) ≤ 1 ∧ 1 < (62.5 : ℝ) / 2 ^ (1 / (2 * (1 : ℝ))) ∧ (62.5 : ℝ) / 2 ^ (1 / (2 * (1 : ℝ))) < 48000 / 2 := by
  have h := width_facts 1 le_rfl
  have h1 : (0 : ℝ) < 2 ^ (1 / (2 * (1 : ℝ))) := by positivity
  refine ⟨le_rfl, ?_, ?_⟩
  · rw [lt_div_iff₀ h1]
    nlinarith [h.1, h.2.1]
  · rw [div_lt_iff₀ h1]
    nlinarith [h.1, h.2.1]

/-- **C81**, the proviso is needed: with bands from 1 Hz the centre given for the first band lies above the band. -/
theorem C81_low_fails (fs fHigh : ℝ) (fc : List ℝ) (h : Centers 1 fHigh 1 fc) : ((ffTable 1 fs fc).getD 0 0).2.2 < ((ffTable 1 fs fc).getD 0 0).2.1 := by
  obtain ⟨h0, hget, -⟩ := centers_get _ _ _ fc h
  obtain ⟨-, r2, -, -⟩ := ffTable_rows 1 fs fc h0
  obtain ⟨hw1, -, -⟩ := width_facts 1 le_rfl
  set r : ℝ := 2 ^ (1 / (2 * (1 : ℝ))) with hr
  rw [r2, hget 0 h0, pow_zero, mul_one]
  have hr0 : 0 < 1 / r := by positivity
  have hr1 : 1 / r < 1 := by rw [div_lt_one (by linarith)]; exact hw1
  rw [Real.lt_sqrt hr0.le]
  nlinarith

example : Centers 1 1 1 [1] := .stop 1 (by
  have := (width_facts 1 le_rfl).1
  rw [one_mul]
  linarith)

/-! ### Block sizes of `sdm_post_equalization` -/

theorem evenUp_mono {a b : ℤ} (h : a ≤ b) : evenUp a ≤ evenUp b := by
  unfold evenUp
  omega

theorem npRound_mono {a b : ℝ} (h : a ≤ b) : npRound a ≤ npRound b := by
  have ha := npRound_near a
  have hb := npRound_near b
  by_contra hc
  push Not at hc
  have h1 : (npRound b : ℝ) + 1 ≤ npRound a := by exact_mod_cast hc
  -- both are halfway: `a = b`
  have h2 : a = b := by linarith
  rw [h2] at hc
  exact lt_irrefl _ hc

/-- The padding of `sdm_post_equalization`: the block size of the lowest band. -/
theorem padSize_eq (fs : ℝ) (hfs : 125 ≤ fs) (fc : List ℝ) (h : Centers 1 (filterHigh fs (some 16000)) 62.5 fc) :
    padSize (blockSizes fs (ffTable 1 fs fc)) = (evenUp (npRound (7 / √(62.5 / √2) * fs))).toNat ∧
    ∀ B ∈ blockSizes fs (ffTable 1 fs fc), 0 < B := by
  obtain ⟨h0, hget, -⟩ := centers_get _ _ _ fc h
  obtain ⟨r1, r2, r3, r4⟩ := ffTable_rows 1 fs fc h0
  have hr : (2 : ℝ) ^ (1 / (2 * (1 : ℝ))) = √2 := by rw [Real.sqrt_eq_rpow]; norm_num
  have hs1 : (1.4 : ℝ) < √2 := by rw [Real.lt_sqrt (by norm_num)]; norm_num
  have hs2 : √2 < 1.5 := by rw [Real.sqrt_lt' (by norm_num)]; norm_num
  have hlo1 : (36 : ℝ) < 62.5 / √2 := by rw [lt_div_iff₀ (by linarith)]; linarith
  have hlo2 : (62.5 : ℝ) / √2 < 49 := by rw [div_lt_iff₀ (by linarith)]; linarith
  have hq1 : (6 : ℝ) < √(62.5 / √2) := by rw [Real.lt_sqrt (by norm_num)]; linarith
  have hq2 : √(62.5 / √2) < 7 := by rw [Real.sqrt_lt' (by norm_num)]; linarith
  have hin := C81_inside 1 fs 62.5 (some 16000) fc le_rfl h (by rw [hr]; linarith) (by rw [hr]; linarith)
  -- lower edges are at least that of the first band
  have hedge : ∀ i, i + 1 ≤ fc.length → 62.5 / √2 ≤ ((ffTable 1 fs fc).getD (i + 1) 0).1 ∧ ((ffTable 1 fs fc).getD (i + 1) 0).1 < fs / 2 := by
    intro i hi
    have hlo : ((ffTable 1 fs fc).getD (i + 1) 0).1 = fc.getD i 0 / √2 := by
      rw [← hr]
      by_cases hl : i + 1 < fc.length
      · rw [r3 i hl]
      · rw [show i + 1 = fc.length by omega, r4, show fc.length - 1 = i by omega]
    refine ⟨?_, ?_⟩
    · rw [hlo, hget i (by omega)]
      have : (1 : ℝ) ≤ (2 ^ (1 / (1 : ℝ))) ^ i := one_le_pow₀ (by norm_num)
      gcongr
      linarith
    · have hmono : ∀ j, i + 1 ≤ j → j ≤ fc.length → ((ffTable 1 fs fc).getD (i + 1) 0).1 ≤ ((ffTable 1 fs fc).getD j 0).1 := by
        intro j hj
        induction j, hj using Nat.le_induction with
        | base => intro _; exact le_rfl
        | succ j hj ih =>
          intro hjl
          have h1 := ih (by omega)
          have h2 := hin j (by omega)
          have h3 := (C81_contiguous 1 fs 62.5 _ fc le_rfl h).2.2.2 j (by omega)
          rw [← h3]
          linarith
      have h1 := hmono fc.length hi le_rfl
      have h2 := hin fc.length le_rfl
      have h3 := (C81_contiguous 1 fs 62.5 _ fc le_rfl h).2.2.1
      rw [h3] at h2
      linarith
  have hmem : ∀ B, B ∈ blockSizes fs (ffTable 1 fs fc) ↔ ∃ i < (ffTable 1 fs fc).length,
      B = (evenUp (npRound (7 / (if i = 0 then ((ffTable 1 fs fc).getD i 0).2.1 else ((ffTable 1 fs fc).getD i 0).1) * fs))).toNat := by
    intro B
    unfold blockSizes
    rw [List.mem_mapIdx]
    constructor
    · rintro ⟨i, hi, rfl⟩
      refine ⟨i, hi, ?_⟩
      rw [List.getD_eq_getElem?_getD, List.getElem?_eq_getElem hi, Option.getD_some]
    · rintro ⟨i, hi, rfl⟩
      refine ⟨i, hi, ?_⟩
      rw [List.getD_eq_getElem?_getD, List.getElem?_eq_getElem hi, Option.getD_some]
  have hfirst : ((ffTable 1 fs fc).getD 0 0).2.1 = √(62.5 / √2) := by rw [r2, hget 0 h0, hr, pow_zero, mul_one]
  have hval : ∀ x : ℝ, 0 < x → x ≤ fs → 0 < (evenUp (npRound (7 / x * fs))).toNat := by
    intro x hx hxf
    have h1 : 7 ≤ 7 / x * fs := by
      rw [div_mul_eq_mul_div, le_div_iff₀ hx]
      nlinarith
    have h2 := (npRound_near (7 / x * fs)).1
    have h3 : (0 : ℝ) < npRound (7 / x * fs) := by linarith
    have h4 : 0 < npRound (7 / x * fs) := by exact_mod_cast h3
    unfold evenUp
    omega
  constructor
  · apply le_antisymm
    · unfold padSize
      refine foldl_max_le _ _ _ (Nat.zero_le _) fun B hB => ?_
      obtain ⟨i, hi, rfl⟩ := (hmem B).mp hB
      rcases i with _ | i
      · rw [if_pos rfl, hfirst]
      · rw [if_neg (by omega)]
        have h1 := (hedge i (by omega)).1
        refine Int.toNat_le_toNat (evenUp_mono (npRound_mono ?_))
        gcongr
        linarith
    · refine (foldl_max_ge (blockSizes fs (ffTable 1 fs fc)) 0).2 _ ((hmem _).mpr ⟨0, by omega, ?_⟩)
      rw [if_pos rfl, hfirst]
  · intro B hB
    obtain ⟨i, hi, rfl⟩ := (hmem B).mp hB
    rcases i with _ | i
    · rw [if_pos rfl, hfirst]
      exact hval _ (by linarith) (by linarith)
    · rw [if_neg (by omega)]
      have h1 := hedge i (by omega)
      exact hval _ (by linarith) (by linarith)

theorem npRound_of (x : ℝ) (z : ℤ) (h1 : (z : ℝ) - 1 / 2 < x) (h2 : x < z + 1 / 2) : npRound x = z := by
  have h := npRound_near x
  have h3 : (npRound x : ℝ) < z + 1 := by linarith
  have h4 : (z : ℝ) - 1 < npRound x := by linarith
  have h3' : npRound x < z + 1 := by exact_mod_cast h3
  have h4' : z - 1 < npRound x := by exact_mod_cast h4
  omega

/-- Bounds on the block length before rounding. -/
theorem block_bounds (fs lo hi : ℝ) (hfs : 0 < fs) (hlo0 : 0 ≤ lo) (hhi0 : 0 < hi) (hlo : lo ^ 2 * 62.5 < 49 * 1.41421356 * fs ^ 2) (hhi : 49 * 1.41421357 * fs ^ 2 < hi ^ 2 * 62.5) :
    lo < 7 / √(62.5 / √2) * fs ∧ 7 / √(62.5 / √2) * fs < hi := by
  have hs1 : (1.41421356 : ℝ) < √2 := by rw [Real.lt_sqrt (by norm_num)]; norm_num
  have hs2 : √2 < 1.41421357 := by rw [Real.sqrt_lt' (by norm_num)]; norm_num
  set v := 7 / √(62.5 / √2) * fs with hv
  have hq : 0 < √(62.5 / √2) := Real.sqrt_pos.mpr (by positivity)
  have hv0 : 0 < v := by positivity
  have hv2 : v ^ 2 * 62.5 = 49 * √2 * fs ^ 2 := by
    rw [hv, mul_pow, div_pow, Real.sq_sqrt (by positivity)]
    field_simp
    norm_num
  constructor
  · by_contra hc
    push Not at hc
    have : v ^ 2 ≤ lo ^ 2 := by gcongr
    nlinarith [sq_nonneg fs]
  · by_contra hc
    push Not at hc
    have : hi ^ 2 ≤ v ^ 2 := by gcongr
    nlinarith [sq_nonneg fs]

/-- **C71**: `sdm_post_equalization` raises `AssertionError` on every input at sampling rates of 22050, 96000 and 192000 Hz: half the largest block size
minus one is even there. -/
theorem C71_rates_fail (fs : ℝ) (hfs : fs = 22050 ∨ fs = 96000 ∨ fs = 192000) (fc : List ℝ) (h : Centers 1 (filterHigh fs (some 16000)) 62.5 fc)
    {L : ℕ} (S : ℕ) (irs : List (List ℝ)) (softClip : Bool) (att : Fin L → ℝ) (x : Fin L → List ℝ) (p : List ℝ) (res : Py (PostOut L))
    (hr : PostEq S fs (ffTable 1 fs fc) irs softClip att x p res) : res = .error .assertionError := by
  have hpad := (padSize_eq fs (by rcases hfs with rfl | rfl | rfl <;> norm_num) fc h).1
  have heven : (padSize (blockSizes fs (ffTable 1 fs fc)) / 2 - 1) % 2 = 0 := by
    rw [hpad]
    rcases hfs with rfl | rfl | rfl
    · have hb := block_bounds 22050 23217.6 23218.4 (by norm_num) (by norm_num) (by norm_num) (by norm_num) (by norm_num)
      rw [npRound_of _ 23218 (lt_of_le_of_lt (by norm_num) hb.1) (lt_of_lt_of_le hb.2 (by norm_num))]
      decide
    · have hb := block_bounds 96000 101084.6 101085.4 (by norm_num) (by norm_num) (by norm_num) (by norm_num) (by norm_num)
      rw [npRound_of _ 101085 (lt_of_le_of_lt (by norm_num) hb.1) (lt_of_lt_of_le hb.2 (by norm_num))]
      decide
    · have hb := block_bounds 192000 202169.6 202170.4 (by norm_num) (by norm_num) (by norm_num) (by norm_num) (by norm_num)
      rw [npRound_of _ 202170 (lt_of_le_of_lt (by norm_num) hb.1) (lt_of_lt_of_le hb.2 (by norm_num))]
      decide
  cases hr with
  | evenTaps => rfl
  | badLength => rfl
  | run h' => omega

/-- **C71**: at 44100 and 48000 Hz the number of taps is odd and all block sizes are positive, so the remaining theorems apply. -/
theorem C71_rates (fs : ℝ) (hfs : fs = 44100 ∨ fs = 48000) (fc : List ℝ) (h : Centers 1 (filterHigh fs (some 16000)) 62.5 fc) :
    ffTable 1 fs fc ≠ [] ∧ (padSize (blockSizes fs (ffTable 1 fs fc)) / 2 - 1) % 2 = 1 ∧ ∀ B ∈ blockSizes fs (ffTable 1 fs fc), 0 < B := by
  have hpad := padSize_eq fs (by rcases hfs with rfl | rfl <;> norm_num) fc h
  refine ⟨by simp [ffTable], ?_, hpad.2⟩
  rw [hpad.1]
  rcases hfs with rfl | rfl
  · have hb := block_bounds 44100 46435.6 46436.4 (by norm_num) (by norm_num) (by norm_num) (by norm_num) (by norm_num)
    rw [npRound_of _ 46436 (lt_of_le_of_lt (by norm_num) hb.1) (lt_of_lt_of_le hb.2 (by norm_num))]
    decide
  · have hb := block_bounds 48000 50542.502 50543.4 (by norm_num) (by norm_num) (by norm_num) (by norm_num) (by norm_num)
    rw [npRound_of _ 50543 (lt_of_le_of_lt (by norm_num) hb.1) (lt_of_lt_of_le hb.2 (by norm_num))]
    decide

/-- The centre frequencies exist (and are unique). -/
example : ∃ fc, Centers 1 (filterHigh 48000 (some 16000)) 62.5 fc := (C54_terminates 1 62.5 _ le_rfl (by norm_num)).exists

/-- `C71_rates_fail`: the call has a result at 96 kHz. -/
example : ∃ fc, Centers 1 (filterHigh 96000 (some 16000)) 62.5 fc ∧
    ∃ res : Py (PostOut 1), PostEq 2 96000 (ffTable 1 96000 fc) [] false (fun _ => 1) (fun _ => [1, 2]) [1] res := by
  obtain ⟨fc, hfc⟩ := (C54_terminates 1 62.5 (filterHigh 96000 (some 16000)) le_rfl (by norm_num)).exists
  refine ⟨fc, hfc, .error .assertionError, ?_⟩
  by_cases h : (padSize (blockSizes 96000 (ffTable 1 96000 fc)) / 2 - 1) % 2 = 0
  · exact .evenTaps h
  · exact .badLength (by omega) (by simp)

end Verif.Props
