import Verif.Props.PostEq2
import Verif.Props.FilterTable

/-! C96: levels of subband signals.  C97: the gains of `sdm_post_equalization2`. -/

namespace Verif.Props
open Parsa Sig Process Real

/-! ### C96 -/

/-- **C96** (homogeneity): scaling a subband signal by `c` scales its level by `|c|` and its power by `|c|²`; the bands do not influence each other. -/
theorem C96_scale {B N : ℕ} (x : Fin B → Fin N → ℂ) (c : Fin B → ℂ) (width : Fin B → ℝ) (fs : ℝ) (b : Fin B) :
    subbandLevels (fun b i => c b * x b i) width fs false b = ‖c b‖ * subbandLevels x width fs false b ∧
      subbandLevels (fun b i => c b * x b i) width fs true b = ‖c b‖ ^ 2 * subbandLevels x width fs true b := by
  have e : ∑ i, ‖c b * x b i‖ ^ 2 = ‖c b‖ ^ 2 * ∑ i, ‖x b i‖ ^ 2 := by
    rw [Finset.mul_sum]
    exact Finset.sum_congr rfl fun i _ => by rw [norm_mul]; ring
  unfold subbandLevels
  simp only [Bool.false_eq_true, if_false, if_true, e]
  constructor
  · rw [show 1 / width b * fs / 2 * (‖c b‖ ^ 2 * ∑ i, ‖x b i‖ ^ 2) = ‖c b‖ ^ 2 * (1 / width b * fs / 2 * ∑ i, ‖x b i‖ ^ 2) by ring,
      Real.sqrt_mul (sq_nonneg _), Real.sqrt_sq (norm_nonneg _)]
  · ring

/-- **C96** (units): for positive widths and rate, the level is the root of `N` times the power, and it vanishes exactly for a silent band. -/
theorem C96_power {B N : ℕ} (hN : 0 < N) (x : Fin B → Fin N → ℂ) (width : Fin B → ℝ) (fs : ℝ) (hfs : 0 < fs) (b : Fin B) (hw : 0 < width b) :
    0 ≤ subbandLevels x width fs false b ∧ subbandLevels x width fs false b ^ 2 = N * subbandLevels x width fs true b ∧
      (subbandLevels x width fs false b = 0 ↔ ∀ i, x b i = 0) := by
  have h0 : 0 ≤ ∑ i, ‖x b i‖ ^ 2 := Finset.sum_nonneg fun _ _ => by positivity
  have hN' : (N : ℝ) ≠ 0 := by positivity
  unfold subbandLevels
  simp only [Bool.false_eq_true, if_false, if_true]
  refine ⟨Real.sqrt_nonneg _, ?_, ?_⟩
  · rw [Real.sq_sqrt (by positivity)]
    field_simp
  · rw [Real.sqrt_eq_zero (by positivity)]
    have hc : 1 / width b * fs / 2 ≠ 0 := by positivity
    rw [mul_eq_zero_iff_left hc, Finset.sum_eq_zero_iff_of_nonneg fun _ _ => by positivity]
    simp

/-- **C96** (value): the squared level times twice the width is the sampling rate times the energy of the band. -/
theorem C96_value {B N : ℕ} (hN : 0 < N) (x : Fin B → Fin N → ℂ) (width : Fin B → ℝ) (fs : ℝ) (hfs : 0 < fs) (b : Fin B) (hw : 0 < width b) :
    2 * width b * subbandLevels x width fs false b ^ 2 = fs * ∑ i, ‖x b i‖ ^ 2 ∧
    2 * width b * (N * subbandLevels x width fs true b) = fs * ∑ i, ‖x b i‖ ^ 2 := by
  have h0 : 0 ≤ ∑ i, ‖x b i‖ ^ 2 := Finset.sum_nonneg fun _ _ => by positivity
  unfold subbandLevels
  simp only [Bool.false_eq_true, if_false, if_true]
  refine ⟨?_, ?_⟩
  · rw [Real.sq_sqrt (by positivity)]
    field_simp
  · have hN' : (N : ℝ) ≠ 0 := by positivity
    field_simp

/-- `C96_value`: energy 25 in a band of 100 Hz. -/
example : 2 * 100 * subbandLevels (B := 1) (N := 2) ![![3, 4 * Complex.I]] ![100] 48000 false 0 ^ 2 = 48000 * 25 := by
  have := (C96_value (B := 1) (N := 2) (by norm_num) ![![3, 4 * Complex.I]] ![100] 48000 (by norm_num) 0 (by simp)).1
  simp [Fin.sum_univ_two] at this
  rw [this]
  norm_num

/-- `C96_power`: one band of two bins. -/
example : subbandLevels (B := 1) (N := 2) ![![3, 4 * Complex.I]] ![100] 48000 false 0 ^ 2
    = (2 : ℕ) * subbandLevels (B := 1) (N := 2) ![![3, 4 * Complex.I]] ![100] 48000 true 0 :=
  (C96_power (by norm_num) _ _ 48000 (by norm_num) 0 (by norm_num)).2.1

/-- **C96** (white spectrum): the level of a flat band of `M` out of `N` bins of magnitude `a`, with
the width `M · fs / (2 N)` of these bins, is `a √N`, whatever the number of bins: levels are comparable between bands of different widths. -/
theorem C96_flat {B N : ℕ} (hN : 0 < N) (x : Fin B → Fin N → ℂ) (width : Fin B → ℝ) (fs a : ℝ) (hfs : 0 < fs) (ha : 0 ≤ a) (b : Fin B) (K : Finset (Fin N)) (hK : K.Nonempty)
    (hin : ∀ i ∈ K, ‖x b i‖ = a) (hout : ∀ i ∉ K, x b i = 0) (hw : width b = K.card * (fs / 2 / N)) :
    subbandLevels x width fs false b = a * √N ∧ subbandLevels x width fs true b = a ^ 2 := by
  have e : ∑ i, ‖x b i‖ ^ 2 = K.card * a ^ 2 := by
    rw [← Finset.sum_subset (Finset.subset_univ K) fun i _ hi => by rw [hout i hi]; simp, Finset.sum_congr rfl fun i hi => by rw [hin i hi]]
    simp
  have hc : (0 : ℝ) < K.card := by exact_mod_cast Finset.card_pos.mpr hK
  have hN' : (0 : ℝ) < N := by exact_mod_cast hN
  unfold subbandLevels
  simp only [Bool.false_eq_true, if_false, if_true, e, hw]
  constructor
  · rw [show 1 / (K.card * (fs / 2 / N)) * fs / 2 * (K.card * a ^ 2) = a ^ 2 * N by field_simp, Real.sqrt_mul (sq_nonneg _), Real.sqrt_sq ha]
  · field_simp

/-- **C96** (energy): the bands of the fractional octave filter bank (mode `'energy'`) together carry the energy of the spectrum: the squared levels, weighted
with the band widths, add up to `fs/2` times the energy, for every spectrum. -/
theorem C96_energy (n fs fHigh fLow overlap : ℝ) (Nout slope : ℕ) (fc : List ℝ) (g : ℕ → ℕ → ℝ) (hn : 1 ≤ n) (hN : 2 ≤ Nout) (hfs : 0 < fs) (hf : 0 < fLow)
    (hov : 0 ≤ overlap) (hfc : Centers n fHigh fLow fc) (h : filterbank n Nout fs fc .energy overlap slope = .ok g) (X : Fin Nout → ℂ)
    (width : Fin (fc.length + 1) → ℝ) (hw : ∀ b, 0 < width b) :
    ∑ b, width b * subbandLevels (fun b i => (g b i : ℂ) * X i) width fs false b ^ 2 = fs / 2 * ∑ i, ‖X i‖ ^ 2 := by
  have hen := C54_energy n fs fHigh fLow overlap Nout slope fc g hn hN hfs hf hov hfc h
  have e : ∀ b : Fin (fc.length + 1), width b * subbandLevels (fun b i => (g b i : ℂ) * X i) width fs false b ^ 2 = fs / 2 * ∑ i : Fin Nout, g b i ^ 2 * ‖X i‖ ^ 2 := by
    intro b
    have hb := hw b
    unfold subbandLevels
    simp only [Bool.false_eq_true, if_false]
    have h0 : 0 ≤ ∑ i : Fin Nout, ‖(g b i : ℂ) * X i‖ ^ 2 := Finset.sum_nonneg fun _ _ => by positivity
    rw [Real.sq_sqrt (by positivity)]
    have e2 : ∑ i : Fin Nout, ‖(g b i : ℂ) * X i‖ ^ 2 = ∑ i : Fin Nout, g b i ^ 2 * ‖X i‖ ^ 2 :=
      Finset.sum_congr rfl fun i _ => by rw [norm_mul, Complex.norm_real, mul_pow, Real.norm_eq_abs, sq_abs]
    rw [e2]
    field_simp
  rw [Finset.sum_congr rfl fun b _ => e b, ← Finset.mul_sum, Finset.sum_comm]
  congr 1
  refine Finset.sum_congr rfl fun i _ => ?_
  rw [← Finset.sum_mul]
  have := (hen i i.2).1
  rw [Finset.sum_range fun r => g r i ^ 2] at this
  rw [this, one_mul]

/-- Two bands of different widths: a flat one of four bins, and one with a single bin. -/
example : subbandLevels (N := 4) ![fun _ => 3, fun i => if i = 0 then 3 else 0] ![100, 25] 200 true 0 = 3 ^ 2 ∧
    subbandLevels (N := 4) ![fun _ => 3, fun i => if i = 0 then 3 else 0] ![100, 25] 200 true 1 = 3 ^ 2 :=
  ⟨(C96_flat (by norm_num) _ _ 200 3 (by norm_num) (by norm_num) 0 Finset.univ (by simp) (by simp) (by simp) (by simp; norm_num)).2,
    (C96_flat (by norm_num) _ _ 200 3 (by norm_num) (by norm_num) 1 {0} (by simp) (by simp) (by simp) (by simp; norm_num)).2⟩

/-! ### C97 -/

/-- The level of one real row is the level of that row among complex ones. -/
theorem level_row {B N : ℕ} (x : Fin B → Fin N → ℝ) (width : Fin B → ℝ) (fs : ℝ) (power : Bool) (b : Fin B) :
    subbandLevel (x b) (width b) fs power = subbandLevels (fun b i => (x b i : ℂ)) width fs power b := by
  unfold subbandLevel subbandLevels
  simp only [Complex.norm_real, Real.norm_eq_abs]

theorem level_nonneg {N : ℕ} (x : Fin N → ℝ) (width fs : ℝ) : 0 ≤ subbandLevel x width fs false := by
  unfold subbandLevel
  simp only [Bool.false_eq_true, if_false]
  exact Real.sqrt_nonneg _

theorem level_scale {N : ℕ} (x : Fin N → ℝ) (c width fs : ℝ) (hc : 0 ≤ c) : subbandLevel (fun i => c * x i) width fs false = c * subbandLevel x width fs false := by
  unfold subbandLevel
  simp only [Bool.false_eq_true, if_false]
  have e : ∑ i, |c * x i| ^ 2 = c ^ 2 * ∑ i, |x i| ^ 2 := by
    rw [Finset.mul_sum]
    exact Finset.sum_congr rfl fun i _ => by rw [abs_mul, mul_pow, sq_abs c]
  rw [e, show 1 / width * fs / 2 * (c ^ 2 * ∑ i, |x i| ^ 2) = c ^ 2 * (1 / width * fs / 2 * ∑ i, |x i| ^ 2) by ring, Real.sqrt_mul (sq_nonneg _), Real.sqrt_sq hc]

theorem ratio01 (a b : ℝ) (ha : 0 ≤ a) (hb : 0 ≤ b) : 0 ≤ levelRatio a b ∧ levelRatio a b ≤ 1 := by
  unfold levelRatio
  split_ifs
  · norm_num
  · exact ⟨le_min (div_nonneg ha hb) zero_le_one, min_le_right _ _⟩

theorem raw01 {L : ℕ} (B : ℕ) (fs : ℝ) (g : ℕ → ℕ → ℝ) (width : ℕ → ℝ) (att : Fin L → ℝ) (x : Fin L → List ℝ) (p : List ℝ) (s b : ℕ) :
    0 ≤ rawGain B fs g width att x p s b ∧ rawGain B fs g width att x p s b ≤ 1 := by
  unfold rawGain bandGain
  simp only
  obtain ⟨c1, c2⟩ := ratio01 _ _ (level_nonneg (fun i : Fin (B / 2 + 1) => g b i * √(‖dft B B (fun m => blockWin B m * padded B p (s + m)) i‖ ^ 2)) (width b) fs)
    (level_nonneg (fun i : Fin (B / 2 + 1) => g b i * ∑ l, ‖(att l : ℂ) * dft B B (fun m => blockWin B m * padded B (x l) (s + m)) i‖) (width b) fs)
  obtain ⟨i1, i2⟩ := ratio01 _ _ (level_nonneg (fun i : Fin (B / 2 + 1) => g b i * √(‖dft B B (fun m => blockWin B m * padded B p (s + m)) i‖ ^ 2)) (width b) fs)
    (level_nonneg (fun i : Fin (B / 2 + 1) => g b i * √(∑ l, ‖(att l : ℂ) * dft B B (fun m => blockWin B m * padded B (x l) (s + m)) i‖ ^ 2)) (width b) fs)
  split_ifs
  · exact ⟨c1, c2⟩
  · constructor <;> linarith
  · constructor <;> linarith
  · exact ⟨i1, i2⟩

theorem hanning_nonneg (M : ℕ) : ∀ v ∈ hanning M, 0 ≤ v := by
  intro v hv
  unfold hanning at hv
  split_ifs at hv
  · simp at hv; rw [hv]; norm_num
  · obtain ⟨i, -, rfl⟩ := List.mem_map.mp hv
    have := Real.neg_one_le_cos (π * (2 * i + 1 - M) / (M - 1))
    linarith

theorem smoothWin_unit (co : ℤ) : (∀ v ∈ smoothWin co, 0 ≤ v) ∧ (smoothWin co).sum ≤ 1 := by
  unfold smoothWin
  simp only
  set w := pySlice (hanning (co * 2 + 1).toNat) (-(co + 1)) (-1) with hw
  have hn : ∀ v ∈ w, 0 ≤ v := by
    intro v hv
    rw [hw] at hv
    unfold pySlice at hv
    exact hanning_nonneg _ v (List.mem_of_mem_take (List.mem_of_mem_drop hv))
  have hs : 0 ≤ w.sum := List.sum_nonneg hn
  constructor
  · intro v hv
    obtain ⟨u, hu, rfl⟩ := List.mem_map.mp hv
    exact div_nonneg (hn u hu) hs
  · have : (w.map (· / w.sum)).sum = w.sum / w.sum := by
      simp only [div_eq_mul_inv]
      rw [List.sum_map_mul_right]
      simp
    rw [this]
    exact div_self_le_one _

theorem list_sum_range (l : List ℝ) : l.sum = ∑ k ∈ Finset.range l.length, l.getD k 0 := by
  induction l with
  | nil => simp
  | cons a t ih =>
    rw [List.sum_cons, List.length_cons, Finset.sum_range_succ', ih]
    simp [add_comm]

theorem getD_nonneg (l : List ℝ) (h : ∀ v ∈ l, 0 ≤ v) (k : ℕ) : 0 ≤ l.getD k 0 := by
  rw [List.getD_eq_getElem?_getD]
  rcases hk : l[k]? with _ | v
  · simp
  · simpa using h v (List.mem_of_getElem? hk)

/-- All gains of a list lie between zero and one. -/
def InUnit (l : List (ℕ → ℝ)) : Prop := ∀ f ∈ l, ∀ b, 0 ≤ f b ∧ f b ≤ 1

theorem smooth_unit (order : ℤ) (ho : 1 ≤ order) (hist : List (ℕ → ℝ)) (cur r : ℕ → ℝ) (hh : InUnit hist) (hc : ∀ b, 0 ≤ cur b ∧ cur b ≤ 1)
    (h : smoothGains order hist cur = .ok r) (b : ℕ) : 0 ≤ r b ∧ r b ≤ 1 := by
  unfold smoothGains at h
  by_cases h0 : hist = []
  · rw [if_pos h0] at h
    cases h
    exact hc b
  · rw [if_neg h0] at h
    have hl : 1 ≤ min order (hist.length : ℤ) := by
      have : 0 < hist.length := List.length_pos_iff.mpr h0
      omega
    have hlen := smoothWin_length _ hl
    obtain ⟨hw1, hw2⟩ := smoothWin_unit (min order (hist.length : ℤ))
    rcases hw : smoothWin (min order (hist.length : ℤ)) with _ | ⟨w0, ws⟩
    · simp only [hw] at h
      exact absurd h (by simp)
    · simp only [hw, Except.ok.injEq] at h
      rw [hw] at hlen hw1 hw2
      rw [← h]
      have hwn : ∀ k, 0 ≤ (w0 :: ws).getD k 0 := getD_nonneg _ hw1
      have hb : ∀ k ∈ Finset.Ico 1 (min order (hist.length : ℤ)).toNat, 0 ≤ (hist.getD (hist.length - k) fun _ => 0) b ∧ (hist.getD (hist.length - k) fun _ => 0) b ≤ 1 := by
        intro k hk
        rw [List.getD_eq_getElem?_getD]
        rcases hk : hist[hist.length - k]? with _ | f
        · simp
        · simpa using hh f (List.mem_of_getElem? hk) b
      have hsplit : w0 + ∑ k ∈ Finset.Ico 1 (min order (hist.length : ℤ)).toNat, (w0 :: ws).getD k 0 = (w0 :: ws).sum := by
        rw [list_sum_range, hlen, Finset.range_eq_Ico, Finset.sum_eq_sum_Ico_succ_bot (show 0 < (min order (hist.length : ℤ)).toNat by omega)]
        rfl
      have w0n : 0 ≤ w0 := hw1 w0 (by simp)
      constructor
      · exact add_nonneg (mul_nonneg w0n (hc b).1) (Finset.sum_nonneg fun k hk => mul_nonneg (hwn k) (hb k hk).1)
      · calc _ ≤ w0 + ∑ k ∈ Finset.Ico 1 (min order (hist.length : ℤ)).toNat, (w0 :: ws).getD k 0 :=
              add_le_add (mul_le_of_le_one_right w0n (hc b).2) (Finset.sum_le_sum fun k hk => mul_le_of_le_one_right (hwn k) (hb k hk).2)
          _ ≤ 1 := by rw [hsplit]; exact hw2

theorem hist_unit (order : ℤ) (ho : 1 ≤ order) (raw : ℕ → ℕ → ℝ) (hraw : ∀ s b, 0 ≤ raw s b ∧ raw s b ≤ 1) (starts : List ℕ) (hist r : List (ℕ → ℝ)) (hh : InUnit hist)
    (h : (starts.foldlM (histStep order raw) hist : Py _) = .ok r) : InUnit r := by
  induction starts generalizing hist with
  | nil =>
    simp only [List.foldlM_nil, pure, Except.pure, Except.ok.injEq] at h
    rw [← h]; exact hh
  | cons s ss ih =>
    obtain ⟨t, ht⟩ := smooth_ok order ho hist (raw s)
    rw [List.foldlM_cons] at h
    change (histStep order raw hist s).bind _ = _ at h
    unfold histStep at h
    rw [ht] at h
    refine ih (hist ++ [t]) ?_ h
    intro f hf b
    rcases List.mem_append.mp hf with h1 | h1
    · exact hh f h1 b
    · rw [List.mem_singleton.mp h1]
      exact smooth_unit order ho hist (raw s) t hh (hraw s) ht b

/-- **C97**: `sdm_post_equalization2` never amplifies.  The output is the overlap-add sum with band gains between zero and one, and the returned gains lie
between zero and one as well, for every signal, layout and smoothing order. -/
theorem C97_never_amplifies {L : ℕ} (S B : ℕ) (hB : 2 ≤ B) (heven : B % 2 = 0) (fs : ℝ) (g : ℕ → ℕ → ℝ) (width : ℕ → ℝ) (irs : List (List ℝ)) (hir : ∀ ir ∈ irs, ir.length = B + 1)
    (att : Fin L → ℝ) (x : Fin L → List ℝ) (p : List ℝ) (hp : p.length = S) (order : ℤ) (ho : 1 ≤ order) (res : Py (PostOut L × List (ℕ → ℝ)))
    (hr : PostEq2 S B fs g width irs att x p order res) :
    ∃ o gains applied, res = .ok (o, gains) ∧ (∀ f ∈ gains, ∀ b, 0 ≤ f b ∧ f b ≤ 1) ∧ (∀ i b, 0 ≤ applied i b ∧ applied i b ≤ 1) ∧
      ∀ l s, s < S → (o.out l).getD s 0 = overlapped S B irs (x l) applied (2 * B + s) := by
  obtain ⟨t, ht, hl⟩ := hist_ok order ho (rawGain B fs g width att x p) ((List.range (S / (B / 2) + 3)).map fun i => i * (B / 2)) []
  obtain ⟨o, h1, -, -, h2, h3⟩ := post2_run S B hB heven fs g width irs hir att x p hp order _ ht res hr
  have hu := hist_unit order ho _ (fun s b => raw01 B fs g width att x p s b) _ [] _ (by simp [InUnit]) ht
  refine ⟨o, _, fun i => rawGain B fs g width att x p (i * (B / 2)), h1, ?_, fun i b => raw01 _ _ _ _ _ _ _ _ _, fun l s hs => by rw [h2 l s hs, h3]⟩
  intro f hf
  unfold pySlice at hf
  exact hu f (List.mem_of_mem_take (List.mem_of_mem_drop hf))

/-- `C97_never_amplifies`: two loudspeakers, three samples, blocks of two samples, three bands, smoothing over two blocks. -/
example : ∃ (o : PostOut 2) (gains : List (ℕ → ℝ)), PostEq2 3 2 48000 (fun _ _ => 1) (fun _ => 100) [[0, 1, 0], [1, 0, 0], [0, 0, 1]] ![1, 1 / 2]
    ![[1, 2, 3], [4, 5, 6]] [7, 8, 9] 2 (.ok (o, gains)) ∧ ∀ f ∈ gains, ∀ b, 0 ≤ f b ∧ f b ≤ 1 := by
  obtain ⟨⟨res, hr⟩, -⟩ := C72_shape (L := 2) 3 2 le_rfl rfl 48000 (fun _ _ => 1) (fun _ => 100) [[0, 1, 0], [1, 0, 0], [0, 0, 1]] (by simp) ![1, 1 / 2]
    ![[1, 2, 3], [4, 5, 6]] [7, 8, 9] rfl 2 (by norm_num)
  obtain ⟨o, gains, _, rfl, h, -⟩ := C97_never_amplifies (L := 2) 3 2 le_rfl rfl 48000 _ _ _ (by simp) _ _ _ rfl 2 (by norm_num) res hr
  exact ⟨o, gains, hr, h⟩

theorem padded_scale (pad : ℕ) (p : List ℝ) (c : ℝ) (t : ℕ) : padded pad (p.map (c * ·)) t = c * padded pad p t := by
  rw [padded_eq, padded_eq, List.length_map]
  split_ifs with h
  · rw [List.getD_eq_getElem?_getD, List.getElem?_map, List.getD_eq_getElem?_getD]
    cases p[t - pad]? <;> simp
  · simp

theorem dft_scale (nfft B : ℕ) (x : ℕ → ℝ) (c : ℝ) (k : ℕ) : dft nfft B (fun m => c * x m) k = c * dft nfft B x k := by
  unfold dft
  rw [Finset.mul_sum]
  exact Finset.sum_congr rfl fun m _ => by push_cast; ring

/-- The windowed spectrum of block `s` of the padded reference. -/
noncomputable def blockSpectrum (B : ℕ) (p : List ℝ) (s k : ℕ) : ℂ := dft B B (fun m => sin (π * m / B) ^ 2 * padded B p (s + m)) k

theorem blockSpectrum_eq (B : ℕ) (p : List ℝ) (s k : ℕ) : dft B B (fun m => blockWin B m * padded B p (s + m)) k = blockSpectrum B p s k := by
  unfold blockSpectrum dft
  refine Finset.sum_congr rfl fun m hm => ?_
  simp only [blockWin_eq _ _ (Finset.mem_range.mp hm)]

/-- The gains for loudspeaker signals that are the reference scaled by panning gains. -/
theorem raw_panned {L : ℕ} (B : ℕ) (fs : ℝ) (hfs : 0 < fs) (g : ℕ → ℕ → ℝ) (width : ℕ → ℝ) (att c : Fin L → ℝ) (p : List ℝ) (s b : ℕ) (hw : 0 < width b)
    (hne : ∃ l, att l * c l ≠ 0) (hband : ∃ k ≤ B / 2, g b k * ‖blockSpectrum B p s k‖ ≠ 0) :
    rawGain B fs g width att (fun l => p.map (c l * ·)) p s b =
      (let gc := min (1 / ∑ l, |att l * c l|) 1
       let gi := min (1 / √(∑ l, (att l * c l) ^ 2)) 1
       if b = 0 then gc else if b = 1 then (gc + gi) / 2 else if b = 2 then (gc + 3 * gi) / 4 else gi) := by
  set P : ℕ → ℂ := blockSpectrum B p s with hP
  have hX : ∀ l k, dft B B (fun m => blockWin B m * padded B (p.map (c l * ·)) (s + m)) k = c l * P k := by
    intro l k
    rw [hP, ← blockSpectrum_eq, ← dft_scale]
    congr 1
    funext m
    rw [padded_scale]
    ring
  have hcoh : ∀ k, ∑ l, ‖(att l : ℂ) * (c l * P k)‖ = (∑ l, |att l * c l|) * ‖P k‖ := by
    intro k
    rw [Finset.sum_mul]
    refine Finset.sum_congr rfl fun l _ => ?_
    rw [← mul_assoc, norm_mul, ← Complex.ofReal_mul, Complex.norm_real, Real.norm_eq_abs]
  have hinc : ∀ k, √(∑ l, ‖(att l : ℂ) * (c l * P k)‖ ^ 2) = √(∑ l, (att l * c l) ^ 2) * ‖P k‖ := by
    intro k
    have : ∑ l, ‖(att l : ℂ) * (c l * P k)‖ ^ 2 = (∑ l, (att l * c l) ^ 2) * ‖P k‖ ^ 2 := by
      rw [Finset.sum_mul]
      refine Finset.sum_congr rfl fun l _ => ?_
      rw [← mul_assoc, norm_mul, ← Complex.ofReal_mul, Complex.norm_real, Real.norm_eq_abs, mul_pow, sq_abs]
    rw [this, Real.sqrt_mul' _ (sq_nonneg _), Real.sqrt_sq (norm_nonneg _)]
  set lev := subbandLevel (fun i : Fin (B / 2 + 1) => g b i * ‖P i‖) (width b) fs false with hlev
  have hpos : 0 < lev := by
    obtain ⟨k, hk, hgk⟩ := hband
    exact level_pos _ (width b) fs hw hfs ⟨k, by omega⟩ hgk
  obtain ⟨l0, hl0⟩ := hne
  have hC : 0 < ∑ l, |att l * c l| := Finset.sum_pos' (fun _ _ => abs_nonneg _) ⟨l0, Finset.mem_univ _, abs_pos.mpr hl0⟩
  have hI : 0 < √(∑ l, (att l * c l) ^ 2) := Real.sqrt_pos.mpr (Finset.sum_pos' (fun _ _ => sq_nonneg _) ⟨l0, Finset.mem_univ _, by positivity⟩)
  have hr : ∀ a : ℝ, 0 < a → levelRatio lev (subbandLevel (fun i : Fin (B / 2 + 1) => g b i * (a * ‖P i‖)) (width b) fs false) = min (1 / a) 1 := by
    intro a ha
    have e : subbandLevel (fun i : Fin (B / 2 + 1) => g b i * (a * ‖P i‖)) (width b) fs false = a * lev := by
      rw [hlev, ← level_scale _ _ _ _ ha.le]
      congr 1
      funext i
      ring
    rw [e]
    unfold levelRatio
    rw [if_neg (by positivity)]
    congr 1
    field_simp
  unfold rawGain bandGain
  simp only [hX, hcoh, hinc, blockSpectrum_eq, Real.sqrt_sq (norm_nonneg _)]
  rw [← hP, ← hlev, hr _ hC, hr _ hI]
  split_ifs <;> ring

/-- **C97**: if every loudspeaker plays the reference times its panning gain `c l`, then in every block and band in which the reference is not silent the gain
undoes the panning as far as it amplifies: the lowest band is scaled by one over the sum of the magnitudes of the (distance compensated) panning gains, the
bands from the fourth on by one over the root of their energy, and two bands in between interpolate. -/
theorem C97_panned {L : ℕ} (S B : ℕ) (hB : 2 ≤ B) (heven : B % 2 = 0) (fs : ℝ) (hfs : 0 < fs) (g : ℕ → ℕ → ℝ) (width : ℕ → ℝ) (hw : ∀ b, 0 < width b) (irs : List (List ℝ))
    (hir : ∀ ir ∈ irs, ir.length = B + 1) (att c : Fin L → ℝ) (hne : ∃ l, att l * c l ≠ 0) (p : List ℝ) (hp : p.length = S) (order : ℤ) (ho : 1 ≤ order)
    (res : Py (PostOut L × List (ℕ → ℝ))) (hr : PostEq2 S B fs g width irs att (fun l => p.map (c l * ·)) p order res) :
    ∃ o gains applied, res = .ok (o, gains) ∧ (∀ l s, s < S → (o.out l).getD s 0 = overlapped S B irs (p.map (c l * ·)) applied (2 * B + s)) ∧
      ∀ i b, (∃ k ≤ B / 2, g b k * ‖blockSpectrum B p (i * (B / 2)) k‖ ≠ 0) →
        (b = 0 → applied i b = min (1 / ∑ l, |att l * c l|) 1) ∧ (3 ≤ b → applied i b = min (1 / √(∑ l, (att l * c l) ^ 2)) 1) ∧
        applied i b ∈ Set.uIcc (min (1 / ∑ l, |att l * c l|) 1) (min (1 / √(∑ l, (att l * c l) ^ 2)) 1) := by
  obtain ⟨t, ht, hl⟩ := hist_ok order ho (rawGain B fs g width att (fun l => p.map (c l * ·)) p) ((List.range (S / (B / 2) + 3)).map fun i => i * (B / 2)) []
  obtain ⟨o, h1, -, -, h2, h3⟩ := post2_run S B hB heven fs g width irs hir att _ p hp order _ ht res hr
  refine ⟨o, _, fun i => rawGain B fs g width att (fun l => p.map (c l * ·)) p (i * (B / 2)), h1, fun l s hs => by rw [h2 l s hs, h3], fun i b hb => ?_⟩
  simp only [raw_panned B fs hfs g width att c p _ b (hw b) hne hb]
  set gc := min (1 / ∑ l, |att l * c l|) 1
  set gi := min (1 / √(∑ l, (att l * c l) ^ 2)) 1
  refine ⟨fun h => if_pos h, fun h => by rw [if_neg (by omega), if_neg (by omega), if_neg (by omega)], ?_⟩
  rw [Set.mem_uIcc]
  rcases le_total gc gi with h | h
  · left; split_ifs <;> constructor <;> linarith
  · right; split_ifs <;> constructor <;> linarith

/-- Two loudspeakers at unit distance that both play the reference: the lowest band is scaled by 1/2. -/
example : (∃ l : Fin 2, (![1, 1] : Fin 2 → ℝ) l * (![1, 1] : Fin 2 → ℝ) l ≠ 0) ∧ min (1 / ∑ l, |(![1, 1] : Fin 2 → ℝ) l * (![1, 1] : Fin 2 → ℝ) l|) 1 = 1 / 2 := by
  refine ⟨⟨0, by norm_num⟩, ?_⟩
  simp [Fin.sum_univ_two]
  norm_num

end Verif.Props
