import Verif.Proofs.PostEq

/-! Facts about the block loop of `sdm_post_equalization2`. -/

namespace Verif.Parsa
open Real Sig Process

theorem convAt_taps (x h : List ℝ) (n : ℕ) : convAt x h n = ∑ j ∈ Finset.range h.length, if j ≤ n then h.getD j 0 * x.getD (n - j) 0 else 0 := by
  rw [convAt_comm]
  unfold convAt
  have e1 : ∑ k ∈ Finset.range (n + 1), h.getD k 0 * x.getD (n - k) 0 = ∑ k ∈ Finset.range (n + 1) ∩ Finset.range h.length, h.getD k 0 * x.getD (n - k) 0 := by
    symm
    refine Finset.sum_subset Finset.inter_subset_left fun k hk hk' => ?_
    have : h.length ≤ k := by
      by_contra hc
      exact hk' (Finset.mem_inter.mpr ⟨hk, Finset.mem_range.mpr (by omega)⟩)
    rw [getD_out this, zero_mul]
  rw [e1, Finset.inter_comm, ← Finset.filter_mem_eq_inter, Finset.sum_filter]
  refine Finset.sum_congr rfl fun j _ => ?_
  by_cases h1 : j ≤ n
  · rw [if_pos (Finset.mem_range.mpr (by omega)), if_pos h1]
  · rw [if_neg (by rw [Finset.mem_range]; omega), if_neg h1]

theorem getD_reverse (l : List ℝ) (i : ℕ) (h : i < l.length) : l.reverse.getD i 0 = l.getD (l.length - 1 - i) 0 := by
  rw [List.getD_eq_getElem?_getD, List.getElem?_reverse h, ← List.getD_eq_getElem?_getD]

theorem getD_range_map (n i : ℕ) (f : ℕ → ℝ) : ((List.range n).map f).getD i 0 = if i < n then f i else 0 := by
  split_ifs with h
  · rw [List.getD_eq_getElem?_getD, List.getElem?_map, List.getElem?_range h]; rfl
  · exact getD_out (by simpa using h)

/-- A block filtered forwards and backwards. -/
theorem zero_phase_one (B : ℕ) (hB : 0 < B) (h : List ℝ) (hh : h.length = B + 1) (c : ℝ) (blk : ℕ → ℝ) (m : ℕ) (hm : m < 3 * B) :
    ((convFull (((convFull ((List.range B).map blk) h).map (c * ·)).reverse) h).reverse).getD m 0 =
      c * ∑ k ∈ Finset.range (B + 1), ∑ j ∈ Finset.range (B + 1), h.getD j 0 * h.getD k 0 *
        if B + j ≤ m + k ∧ m + k < 2 * B + j then blk (m + k - B - j) else 0 := by
  set y := (convFull ((List.range B).map blk) h).map (c * ·) with hy
  have hyl : y.length = 2 * B := by rw [hy, List.length_map, convFull_length, hh]; simp; omega
  have hcl : (convFull y.reverse h).length = 3 * B := by rw [convFull_length, List.length_reverse, hyl, hh]; omega
  have hyg : ∀ i, y.getD i 0 = c * ∑ j ∈ Finset.range (B + 1), if j ≤ i then h.getD j 0 * (if i - j < B then blk (i - j) else 0) else 0 := by
    intro i
    have : y.getD i 0 = c * (convFull ((List.range B).map blk) h).getD i 0 := by
      rw [hy, List.getD_eq_getElem?_getD, List.getElem?_map, List.getD_eq_getElem?_getD]
      cases (convFull ((List.range B).map blk) h)[i]? <;> simp
    rw [this, convFull_getD, convAt_taps, hh]
    simp_rw [getD_range_map]
  rw [getD_reverse _ _ (by omega), hcl, convFull_getD, convAt_taps, hh, Finset.mul_sum]
  refine Finset.sum_congr rfl fun k hk => ?_
  rw [Finset.mem_range] at hk
  by_cases h1 : k ≤ 3 * B - 1 - m
  · rw [if_pos h1]
    by_cases h2 : 3 * B - 1 - m - k < 2 * B
    · rw [getD_reverse _ _ (by omega), hyl, hyg, Finset.mul_sum, Finset.mul_sum, Finset.mul_sum]
      refine Finset.sum_congr rfl fun j hj => ?_
      rw [Finset.mem_range] at hj
      rw [show 2 * B - 1 - (3 * B - 1 - m - k) = m + k - B by omega]
      by_cases h3 : B + j ≤ m + k
      · rw [if_pos (by omega)]
        by_cases h4 : m + k < 2 * B + j
        · rw [if_pos (by omega), if_pos ⟨h3, h4⟩]
          ring
        · rw [if_neg (by omega), if_neg (by tauto)]
          ring
      · rw [if_neg (by omega), if_neg (by tauto)]
        ring
    · rw [getD_out (x := y.reverse) (by rw [List.length_reverse]; omega), mul_zero, Finset.sum_eq_zero, mul_zero]
      intro j hj
      rw [if_neg (by omega), mul_zero]
  · rw [if_neg h1, Finset.sum_eq_zero, mul_zero]
    intro j hj
    rw [Finset.mem_range] at hj
    rw [if_neg (by omega), mul_zero]

/-- One step of the list of smoothed gains. -/
noncomputable def histStep (order : ℤ) (raw : ℕ → ℕ → ℝ) (hist : List (ℕ → ℝ)) (s : ℕ) : Py (List (ℕ → ℝ)) :=
  (smoothGains order hist (raw s)).bind fun g => .ok (hist ++ [g])

/-- The list of gains and the buffer evolve independently. -/
theorem post2_fold {L : ℕ} (S B : ℕ) (fs : ℝ) (g : ℕ → ℕ → ℝ) (width : ℕ → ℝ) (irs : List (List ℝ)) (att : Fin L → ℝ) (x : Fin L → List ℝ) (p : List ℝ) (order : ℤ)
    (starts : List ℕ) (hfit : ∀ s ∈ starts, s + B ≤ S + 2 * B) (hist : List (ℕ → ℝ)) (buf : Fin L → ℕ → ℝ) :
    (starts.foldlM (post2Block S B fs g width irs att x p order) (hist, buf) : Py _) =
      (starts.foldlM (histStep order (rawGain B fs g width att x p)) hist : Py _).bind fun hist' =>
        .ok (hist', fun l u => buf l u + (starts.map fun s => if s ≤ u ∧ u < s + 3 * B then
          zeroPhase B irs (rawGain B fs g width att x p s) (fun m => blockWin B m * padded B (x l) (s + m)) (u - s) else 0).sum) := by
  induction starts generalizing hist buf with
  | nil =>
    simp [pure, Except.pure, Except.bind]
  | cons s ss ih =>
    rw [List.foldlM_cons, List.foldlM_cons]
    have hs := hfit s (by simp)
    change (post2Block S B fs g width irs att x p order (hist, buf) s).bind _ = ((histStep order (rawGain B fs g width att x p) hist s).bind _).bind _
    have hb1 : post2Block S B fs g width irs att x p order (hist, buf) s = (smoothGains order hist (rawGain B fs g width att x p s)).bind fun smoothed =>
        (olaAdd (S + 4 * B) buf ((s : ℤ) + B - B) (B + 2 * B) fun l => zeroPhase B irs (rawGain B fs g width att x p s) fun m => blockWin B m * padded B (x l) (s + m)).bind
          fun buf => .ok (hist ++ [smoothed], buf) := rfl
    have hb2 : histStep order (rawGain B fs g width att x p) hist s = (smoothGains order hist (rawGain B fs g width att x p s)).bind fun g => .ok (hist ++ [g]) := rfl
    rw [hb1, hb2]
    rcases hsm : smoothGains order hist (rawGain B fs g width att x p s) with e | sm
    · rfl
    · have hola : olaAdd (S + 4 * B) buf ((s : ℤ) + B - B) (B + 2 * B) (fun l => zeroPhase B irs (rawGain B fs g width att x p s) fun m => blockWin B m * padded B (x l) (s + m)) =
          .ok fun l u => buf l u + if s ≤ u ∧ u < s + 3 * B then zeroPhase B irs (rawGain B fs g width att x p s) (fun m => blockWin B m * padded B (x l) (s + m)) (u - s) else 0 := by
        unfold olaAdd
        rw [if_pos (by push_cast; omega)]
        refine congrArg Except.ok (funext fun l => funext fun u => ?_)
        by_cases h : s ≤ u ∧ u < s + 3 * B
        · rw [if_pos (by push_cast; omega), if_pos h, show ((u : ℤ) - ((s : ℤ) + B - B)).toNat = u - s by omega]
        · rw [if_neg (by push_cast; omega), if_neg h, add_zero]
      change ((olaAdd _ buf _ _ _).bind _).bind _ = _
      rw [hola]
      change (List.foldlM _ (hist ++ [sm], _) ss : Py _) = (List.foldlM _ (hist ++ [sm]) ss : Py _).bind _
      rw [ih (fun s hs => hfit s (by simp [hs]))]
      rcases (List.foldlM (histStep order (rawGain B fs g width att x p)) (hist ++ [sm]) ss : Py _) with e | h'
      · rfl
      · refine congrArg Except.ok (Prod.ext rfl (funext fun l => funext fun u => ?_))
        simp only [List.map_cons, List.sum_cons]
        ring

/-- The window has `co` entries. -/
theorem smoothWin_length (co : ℤ) (h : 1 ≤ co) : (smoothWin co).length = co.toNat := by
  unfold smoothWin pySlice
  simp only [List.length_map, List.length_drop, List.length_take, Props.hanning_length, sliceBound]
  rw [if_pos (by omega), if_pos (by omega)]
  omega

theorem smooth_ok (order : ℤ) (h : 1 ≤ order) (hist : List (ℕ → ℝ)) (cur : ℕ → ℝ) : ∃ r, smoothGains order hist cur = .ok r := by
  unfold smoothGains
  by_cases h0 : hist = []
  · exact ⟨cur, by rw [if_pos h0]⟩
  · rw [if_neg h0]
    have hl : 1 ≤ min order (hist.length : ℤ) := by
      have : 0 < hist.length := List.length_pos_iff.mpr h0
      omega
    have h1 := smoothWin_length _ hl
    rcases hw : smoothWin (min order (hist.length : ℤ)) with _ | ⟨w0, ws⟩
    · rw [hw] at h1
      simp at h1
      omega
    · simp only [hw]
      exact ⟨_, rfl⟩

/-- With an order of at least one no error occurs, and earlier entries are kept. -/
theorem hist_ok (order : ℤ) (h : 1 ≤ order) (raw : ℕ → ℕ → ℝ) (starts : List ℕ) (hist : List (ℕ → ℝ)) :
    ∃ tail, (starts.foldlM (histStep order raw) hist : Py _) = .ok (hist ++ tail) ∧ tail.length = starts.length := by
  induction starts generalizing hist with
  | nil => exact ⟨[], by simp [pure, Except.pure], rfl⟩
  | cons s ss ih =>
    obtain ⟨r, hr⟩ := smooth_ok order h hist (raw s)
    obtain ⟨t, ht, hl⟩ := ih (hist ++ [r])
    refine ⟨r :: t, ?_, by simp [hl]⟩
    rw [List.foldlM_cons]
    change (histStep order raw hist s).bind _ = _
    unfold histStep
    rw [hr]
    change (List.foldlM (histStep order raw) (hist ++ [r]) ss : Py _) = _
    rw [ht, List.append_assoc]
    rfl

theorem smoothWin_one : smoothWin 1 = [1] := by
  have h3 : hanning 3 = [(hanning 3).getD 0 0, (hanning 3).getD 1 0, (hanning 3).getD 2 0] := by simp [hanning, List.range_succ]
  have h1 : (hanning 3).getD 1 0 = 1 := by
    rw [Props.hanning_sin 3 1 (by omega) (by omega)]
    rw [show π * ((1 : ℕ) : ℝ) / (((3 : ℕ) : ℝ) - 1) = π / 2 by push_cast; ring, sin_pi_div_two, one_pow]
  unfold smoothWin
  norm_num [pySlice, sliceBound]
  simp only [show Int.toNat 3 = 3 from rfl]
  rw [h3, h1]
  simp

theorem smoothWin_two : smoothWin 2 = [2 / 3, 1 / 3] := by
  have h5 : hanning 5 = [(hanning 5).getD 0 0, (hanning 5).getD 1 0, (hanning 5).getD 2 0, (hanning 5).getD 3 0, (hanning 5).getD 4 0] := by simp [hanning, List.range_succ]
  have h2 : (hanning 5).getD 2 0 = 1 := by
    rw [Props.hanning_sin 5 2 (by omega) (by omega)]
    rw [show π * ((2 : ℕ) : ℝ) / (((5 : ℕ) : ℝ) - 1) = π / 2 by push_cast; ring, sin_pi_div_two, one_pow]
  have h3 : (hanning 5).getD 3 0 = 1 / 2 := by
    rw [Props.hanning_sin 5 3 (by omega) (by omega)]
    rw [show π * ((3 : ℕ) : ℝ) / (((5 : ℕ) : ℝ) - 1) = π - π / 4 by push_cast; ring, sin_pi_sub, sin_pi_div_four, div_pow, Real.sq_sqrt (by norm_num)]
    norm_num
  unfold smoothWin
  norm_num [pySlice, sliceBound]
  simp only [show Int.toNat 5 = 5 from rfl]
  rw [h5, h2, h3]
  norm_num
  simp only [show Int.toNat 2 = 2 from rfl, show Int.toNat 4 = 4 from rfl]
  norm_num

/-- Order one leaves the gains as they are. -/
theorem smooth_one (hist : List (ℕ → ℝ)) (cur : ℕ → ℝ) : smoothGains 1 hist cur = .ok cur := by
  unfold smoothGains
  by_cases h0 : hist = []
  · rw [if_pos h0]
  · rw [if_neg h0]
    have : min (1 : ℤ) (hist.length : ℤ) = 1 := by
      have : 0 < hist.length := List.length_pos_iff.mpr h0
      omega
    simp only [this, smoothWin_one]
    simp

theorem hist_one (raw : ℕ → ℕ → ℝ) (starts : List ℕ) (hist : List (ℕ → ℝ)) : (starts.foldlM (histStep 1 raw) hist : Py _) = .ok (hist ++ starts.map raw) := by
  induction starts generalizing hist with
  | nil => simp [pure, Except.pure]
  | cons s ss ih =>
    rw [List.foldlM_cons]
    change (histStep 1 raw hist s).bind _ = _
    unfold histStep
    rw [smooth_one]
    change (List.foldlM (histStep 1 raw) (hist ++ [raw s]) ss : Py _) = _
    rw [ih]
    simp

/-- An order of zero or less fails from the second block on. -/
theorem smooth_err (order : ℤ) (h : order ≤ 0) (hist : List (ℕ → ℝ)) (h0 : hist ≠ []) (cur : ℕ → ℝ) : smoothGains order hist cur = .error .indexError := by
  unfold smoothGains
  rw [if_neg h0]
  have hm : min order (hist.length : ℤ) ≤ 0 := by omega
  have : smoothWin (min order (hist.length : ℤ)) = [] := by
    set co := min order (hist.length : ℤ)
    apply List.eq_nil_of_length_eq_zero
    unfold smoothWin pySlice
    simp only [List.length_map, List.length_drop, List.length_take, Props.hanning_length, sliceBound]
    by_cases h1 : co = 0
    · rw [h1]
      simp
    · rw [show (co * 2 + 1).toNat = 0 by omega]
      simp
  simp only [this]

end Verif.Parsa
