import Verif.Model.PlotSpectra
import Verif.Proofs.PostEq
import Mathlib.Tactic

/-!
C116 (`plot.spectrum`), C117 (`plot.freq_resp`), C118 (`plot.transfer_function`).
-/

namespace Verif.Props
open Real Verif.Plot Verif.Utils

/-! ### C116 -/

theorem exp_sub_sum (n a b : ℕ) (hn : 0 < n) (ha : a < n) (hb : b < n) :
    ∑ m ∈ Finset.range n, Complex.exp (2 * π * Complex.I * (a * m) / n) * Complex.exp (-(2 * π * Complex.I * (b * m) / n)) = if a = b then (n : ℂ) else 0 := by
  rw [← Verif.Parsa.root_sum n hn a b ha hb]
  refine Finset.sum_congr rfl fun m _ => ?_
  rw [mul_comm (a : ℂ), mul_comm (b : ℂ)]
  ring

/-- The transform of a sinusoid on a bin. -/
theorem dft_cos (n k j : ℕ) (hn : 0 < n) (hk : 2 * k ≤ n) (hj : 2 * j ≤ n) (A φ : ℝ) :
    Verif.Parsa.dft n n (fun m => A * cos (2 * π * k * m / n + φ)) j =
      (A / 2 * Complex.exp (φ * Complex.I)) * (if k = j then (n : ℂ) else 0) +
      (A / 2 * Complex.exp (-(φ * Complex.I))) * (if k = 0 then (if j = 0 then (n : ℂ) else 0) else if n - k = j then (n : ℂ) else 0) := by
  have hn0 : (n : ℂ) ≠ 0 := by exact_mod_cast hn.ne'
  rcases Nat.eq_zero_or_pos k with rfl | hk0
  · unfold Verif.Parsa.dft
    have h := exp_sub_sum n 0 j hn hn (by omega)
    simp only [Nat.cast_zero, mul_zero, zero_mul, zero_div, zero_add, Complex.exp_zero, one_mul] at h ⊢
    rw [← Finset.mul_sum, h]
    have hc : ((cos φ : ℝ) : ℂ) = (Complex.exp (φ * Complex.I) + Complex.exp (-(φ * Complex.I))) / 2 := by
      rw [Complex.ofReal_cos, Complex.cos]; ring_nf
    push_cast [hc] at *
    by_cases h0 : j = 0
    · simp [h0]; ring
    · simp [h0, Ne.symm h0]
  · unfold Verif.Parsa.dft
    have h1 := exp_sub_sum n k j hn (by omega) (by omega)
    have h2 := exp_sub_sum n (n - k) j hn (by omega) (by omega)
    rw [if_neg hk0.ne', ← h1, ← h2, Finset.mul_sum, Finset.mul_sum, ← Finset.sum_add_distrib]
    refine Finset.sum_congr rfl fun m _ => ?_
    have e2 : Complex.exp (2 * π * Complex.I * (((n - k : ℕ) : ℂ) * m) / n) = Complex.exp (-(2 * π * Complex.I * (k * m) / n)) := by
      rw [Nat.cast_sub (by omega)]
      have : 2 * (π : ℂ) * Complex.I * (((n : ℂ) - k) * m) / n = -(2 * π * Complex.I * (k * m) / n) + m * (2 * π * Complex.I) := by
        field_simp; ring
      rw [this, Complex.exp_add, Complex.exp_nat_mul_two_pi_mul_I, mul_one]
    rw [e2]
    have hc : ((cos (2 * π * k * m / n + φ) : ℝ) : ℂ) = (Complex.exp (2 * π * Complex.I * (k * m) / n) * Complex.exp (φ * Complex.I)
        + Complex.exp (-(2 * π * Complex.I * (k * m) / n)) * Complex.exp (-(φ * Complex.I))) / 2 := by
      rw [← Complex.exp_add, ← Complex.exp_add, Complex.ofReal_cos, Complex.cos]
      push_cast
      congr 3 <;> ring
    rw [Complex.ofReal_mul, hc]
    ring

theorem exp_norm_I (φ : ℝ) : ‖Complex.exp (φ * Complex.I)‖ = 1 := Complex.norm_exp_ofReal_mul_I φ

theorem exp_norm_neg_I (φ : ℝ) : ‖Complex.exp (-(φ * Complex.I))‖ = 1 := by
  have := Complex.norm_exp_ofReal_mul_I (-φ)
  rwa [Complex.ofReal_neg, neg_mul] at this

/-- A sampled sinusoid of `n` samples with `k` periods. -/
noncomputable def sinusoid (n k : ℕ) (A φ : ℝ) : List ℝ := (List.range n).map fun m : ℕ => A * cos (2 * π * k * m / n + φ)

theorem rfft_sinusoid (n k j : ℕ) (A φ : ℝ) (h : j < (Process.rfftRow (sinusoid n k A φ)).length) :
    (Process.rfftRow (sinusoid n k A φ))[j] = Verif.Parsa.dft n n (fun m => A * cos (2 * π * k * m / n + φ)) j := by
  have hl : (sinusoid n k A φ).length = n := by simp [sinusoid]
  unfold Process.rfftRow
  simp only [List.getElem_map, List.getElem_range, hl]
  unfold Verif.Parsa.dft
  refine Finset.sum_congr rfl fun m hm => ?_
  have hm' := Finset.mem_range.1 hm
  simp [sinusoid, hm']

theorem rfft_length (x : List ℝ) : (Process.rfftRow x).length = x.length / 2 + 1 := by simp [Process.rfftRow]

theorem magSpectrum_get (bins : ℕ) (s : List ℝ) (hs : s ≠ []) : ∃ l, magSpectrum bins false s = .ok l ∧ l.length = s.length / 2 + 1 ∧
    ∀ j, (h : j < (Process.rfftRow s).length) → l.getD j 0 = ‖(Process.rfftRow s)[j]‖ / bins * if j = 0 then 1 else 2 := by
  unfold magSpectrum
  rw [if_neg hs]
  refine ⟨_, rfl, by simp [rfft_length], fun j h => ?_⟩
  simp only [Bool.false_eq_true, if_false]
  rw [List.getD_eq_getElem?_getD, List.getElem?_mapIdx, List.getElem?_map, List.getElem?_eq_getElem h]
  simp only [Option.map_some, Option.getD_some]
  split <;> simp

/-- The drawn magnitudes of a sinusoid. -/
theorem spectrum_sinusoid (n k : ℕ) (hn : 0 < n) (hk : 2 * k ≤ n) (A φ : ℝ) : ∃ l, magSpectrum n false (sinusoid n k A φ) = .ok l ∧ l.length = n / 2 + 1 ∧
    ∀ j, 2 * j ≤ n → l.getD j 0 = if j = k then (if k = 0 then |A * cos φ| else if 2 * k = n then 2 * |A * cos φ| else |A|) else 0 := by
  have hl : (sinusoid n k A φ).length = n := by simp [sinusoid]
  have hne : sinusoid n k A φ ≠ [] := by intro h; rw [h] at hl; simp at hl; omega
  obtain ⟨l, h1, h2, h3⟩ := magSpectrum_get n _ hne
  refine ⟨l, h1, by rw [h2, hl], fun j hj => ?_⟩
  have hjl : j < (Process.rfftRow (sinusoid n k A φ)).length := by rw [rfft_length, hl]; omega
  rw [h3 j hjl, rfft_sinusoid n k j A φ hjl, dft_cos n k j hn hk hj]
  have hn0 : (0 : ℝ) < n := by exact_mod_cast hn
  have hsum : (A / 2 * Complex.exp (φ * Complex.I)) * (n : ℂ) + (A / 2 * Complex.exp (-(φ * Complex.I))) * (n : ℂ) = ((A * cos φ * n : ℝ) : ℂ) := by
    push_cast
    rw [Complex.cos]
    ring_nf
  by_cases hjk : j = k
  · subst hjk
    rw [if_pos rfl, if_pos rfl]
    by_cases h0 : j = 0
    · rw [if_pos h0, if_pos h0, if_pos h0, if_pos h0, hsum, Complex.norm_real, Real.norm_eq_abs, abs_mul _ (n : ℝ), abs_of_pos hn0]
      field_simp
    · rw [if_neg h0, if_neg h0, if_neg h0]
      by_cases hnyq : 2 * j = n
      · rw [if_pos (show n - j = j by omega), if_pos hnyq, hsum, Complex.norm_real, Real.norm_eq_abs, abs_mul _ (n : ℝ), abs_of_pos hn0]
        field_simp
      · rw [if_neg (show ¬ n - j = j by omega), if_neg hnyq, mul_zero, add_zero, norm_mul, norm_mul, exp_norm_I, mul_one, norm_div, Complex.norm_real,
          Real.norm_eq_abs, Complex.norm_natCast, Complex.norm_ofNat]
        field_simp
  · rw [if_neg (fun h => hjk h.symm), if_neg hjk]
    have : (if k = 0 then (if j = 0 then (n : ℂ) else 0) else if n - k = j then (n : ℂ) else 0) = 0 := by
      split
      · rw [if_neg (by omega)]
      · rw [if_neg (by omega)]
    rw [this]
    simp

/-- **C116** A sinusoid of amplitude `A` that fits the signal shows as a line of height `|A|` at its frequency and nothing else (in dB the floor of -280 dB);
the frequency axis holds the multiples of `fs / n`. -/
theorem C116_sinusoid (n k : ℕ) (hk0 : 0 < k) (hk : 2 * k < n) (A φ fs : ℝ) (hA : 10e-15 ≤ |A|) :
    ∃ d, Plot.spectrum [sinusoid n k A φ] fs = .ok d ∧ d.freq = (List.range (n / 2 + 1)).map (fun j : ℕ => j * fs / n) ∧ d.curves.length = 1 ∧
      (d.curves.getD 0 []).length = n / 2 + 1 ∧ ∀ j, 2 * j ≤ n → (d.curves.getD 0 []).getD j 0 = if j = k then 20 * logb 10 |A| else -280 := by
  obtain ⟨l, h1, h2, h3⟩ := spectrum_sinusoid n k (by omega) hk.le A φ
  have hl : (sinusoid n k A φ).length = n := by simp [sinusoid]
  have hmax : ∃ M, npMax ([l.map dbClipped].flatten) = .ok M := by
    cases l with
    | nil => simp at h2
    | cons a as => exact ⟨_, rfl⟩
  obtain ⟨M, hM⟩ := hmax
  have hr : Plot.spectrum [sinusoid n k A φ] fs = .ok ⟨rfftfreq n fs, [l.map dbClipped], (M - (30 : ℤ), M), none, none⟩ := by
    unfold Plot.spectrum
    simp only [hl]
    have hmm : List.mapM (magSpectrum n false) [sinusoid n k A φ] = .ok [l] := by
      rw [List.mapM_cons, h1]; rfl
    rw [if_neg (by omega), hmm]
    show freqResp (rfftfreq n fs) [l] = _
    unfold freqResp
    rw [if_pos (by simp [h2, rfftfreq])]
    simp only [respCurves, if_true, List.map_cons, List.map_nil, legendOf]
    show Except.map _ (Except.map _ (npMax _)) = _
    rw [hM]; rfl
  refine ⟨_, hr, rfl, rfl, by simp [h2], fun j hj => ?_⟩
  have hjl : j < l.length := by omega
  have e : ([l.map dbClipped].getD 0 []).getD j 0 = dbClipped (l.getD j 0) := by
    simp [hjl]
  show ([l.map dbClipped].getD 0 []).getD j 0 = _
  rw [e, h3 j hj]
  unfold dbClipped db
  simp only [Bool.false_eq_true, if_false]
  by_cases hjk : j = k
  · rw [if_pos hjk, if_pos hjk, if_neg hk0.ne', if_neg (by omega), abs_abs, max_eq_left hA, abs_abs]
  · rw [if_neg hjk, if_neg hjk, abs_zero, max_eq_right (by norm_num), abs_of_pos (by norm_num), show (10e-15 : ℝ) = 10 ^ (-14 : ℝ) by
      rw [Real.rpow_neg (by norm_num), show (14 : ℝ) = ((14 : ℕ) : ℝ) by norm_num, Real.rpow_natCast]; norm_num, Real.logb_rpow (by norm_num) (by norm_num)]
    norm_num

/-- **C116** Without dB: a constant shows at 0 Hz with its magnitude, a sinusoid at half the sampling rate with twice its magnitude (a known deviation noted in
the code), and `scale_mag` multiplies by half the number of samples. -/
theorem C116_edges (n : ℕ) (hn : 0 < n) (c : ℝ) : (∃ l, magSpectrum n false (sinusoid n 0 c 0) = .ok l ∧ ∀ j, 2 * j ≤ n → l.getD j 0 = if j = 0 then |c| else 0) ∧
    (∀ k, n = 2 * k → ∃ l, magSpectrum n false (sinusoid n k c 0) = .ok l ∧ ∀ j, 2 * j ≤ n → l.getD j 0 = if j = k then 2 * |c| else 0) ∧
    ∀ bins s l, magSpectrum bins false s = .ok l → magSpectrum bins true s = .ok (l.map fun v => v * bins / 2) := by
  refine ⟨?_, fun k hk => ?_, fun bins s l h => ?_⟩
  · obtain ⟨l, h1, _, h3⟩ := spectrum_sinusoid n 0 hn (by omega) c 0
    exact ⟨l, h1, fun j hj => by rw [h3 j hj]; simp⟩
  · obtain ⟨l, h1, _, h3⟩ := spectrum_sinusoid n k hn (by omega) c 0
    exact ⟨l, h1, fun j hj => by rw [h3 j hj]; simp [show k ≠ 0 by omega, hk.symm]⟩
  · unfold magSpectrum at h ⊢
    by_cases hs : s = []
    · rw [if_pos hs] at h; cases h
    · rw [if_neg hs] at h ⊢
      simp only [Bool.false_eq_true, if_false, if_true] at h ⊢
      cases h
      rfl

/-- `C116_edges` for a constant of 48 samples. -/
example : ∃ l, magSpectrum 48 false (sinusoid 48 0 (-3) 0) = .ok l ∧ l.getD 0 0 = 3 := by
  obtain ⟨l, h1, h2⟩ := (C116_edges 48 (by norm_num) (-3)).1
  exact ⟨l, h1, by rw [h2 0 (by norm_num), if_pos rfl]; norm_num⟩

theorem magSpectrum_mapM (bins : ℕ) (sc : Bool) (xs : List (List ℝ)) (h : ∀ s ∈ xs, s ≠ []) :
    ∃ ls, xs.mapM (magSpectrum bins sc) = .ok ls ∧ ls.map List.length = xs.map fun s => s.length / 2 + 1 := by
  induction xs with
  | nil => exact ⟨[], rfl, rfl⟩
  | cons x xs ih =>
    obtain ⟨ls, h1, h2⟩ := ih fun s hs => h s (List.mem_cons_of_mem _ hs)
    have : ∃ l, magSpectrum bins sc x = .ok l ∧ l.length = x.length / 2 + 1 := by
      unfold magSpectrum
      rw [if_neg (h x List.mem_cons_self)]
      refine ⟨_, rfl, ?_⟩
      cases sc <;> simp [rfft_length]
    obtain ⟨l, h3, h4⟩ := this
    refine ⟨l :: ls, ?_, by simp [h4, h2]⟩
    rw [List.mapM_cons, h3, h1]; rfl

/-- **C116** Several signals must have the same number of frequency lines, otherwise `AssertionError`; an empty list raises `IndexError`. -/
theorem C116_lengths (x0 : List ℝ) (xs : List (List ℝ)) (h0 : x0 ≠ []) (hx : ∀ s ∈ xs, s ≠ []) (fs : ℝ) : Plot.spectrum [] fs = .error .indexError ∧
    ((∃ s ∈ xs, s.length / 2 ≠ x0.length / 2) → Plot.spectrum (x0 :: xs) fs = .error .assertionError) ∧
    ((∀ s ∈ xs, s.length / 2 = x0.length / 2) → ∃ d, Plot.spectrum (x0 :: xs) fs = .ok d ∧ d.curves.length = xs.length + 1) := by
  have hlen : x0.length ≠ 0 := by simpa using h0
  have hall : ∀ s ∈ x0 :: xs, s ≠ [] := by
    intro s hs
    rcases List.mem_cons.1 hs with rfl | hs
    · exact h0
    · exact hx s hs
  obtain ⟨ls, h1, h2⟩ := magSpectrum_mapM x0.length false (x0 :: xs) hall
  have hrun : Plot.spectrum (x0 :: xs) fs = freqResp (rfftfreq x0.length fs) ls := by
    unfold Plot.spectrum
    simp only
    rw [if_neg hlen, h1]; rfl
  have hl : ls.length = xs.length + 1 := by simpa using congrArg List.length h2
  refine ⟨rfl, fun ⟨s, hs, hne⟩ => ?_, fun hs => ?_⟩
  · rw [hrun]
    unfold freqResp
    rw [if_neg]
    intro hA
    have hm : s.length / 2 + 1 ∈ ls.map List.length := by
      rw [h2]; exact List.mem_map.2 ⟨s, List.mem_cons_of_mem _ hs, rfl⟩
    obtain ⟨a, ha, hae⟩ := List.mem_map.1 hm
    have := hA a ha
    rw [hae] at this
    simp [rfftfreq] at this
    exact hne this
  · rw [hrun]
    have hA : ∀ a ∈ ls, a.length = (rfftfreq x0.length fs).length := by
      intro a ha
      have hm : a.length ∈ ls.map List.length := List.mem_map.2 ⟨a, ha, rfl⟩
      rw [h2] at hm
      obtain ⟨s, hs', hse⟩ := List.mem_map.1 hm
      rw [← hse]
      simp only [rfftfreq, List.length_map, List.length_range]
      rcases List.mem_cons.1 hs' with rfl | h
      · rfl
      · rw [hs s h]
    unfold freqResp
    rw [if_pos hA]
    obtain ⟨M, hM⟩ : ∃ M, npMax (respCurves ls true none).flatten = .ok M := by
      cases hls : ls with
      | nil => rw [hls] at hl; simp at hl
      | cons a as =>
        have ha := hA a (by rw [hls]; exact List.mem_cons_self)
        cases a with
        | nil => simp [rfftfreq] at ha
        | cons b bs => exact ⟨_, rfl⟩
    refine ⟨⟨rfftfreq x0.length fs, respCurves ls true none, (M - (30 : ℤ), M), none, none⟩, ?_, by simp [respCurves, hl]⟩
    show Except.map _ (Except.map _ (npMax _)) = _
    rw [hM]; rfl

/-- `C116_lengths` for two and four samples. -/
example : Plot.spectrum [[1, 2], [1, 2, 3, 4]] 48000 = .error .assertionError :=
  (C116_lengths [1, 2] [[1, 2, 3, 4]] (by simp) (by simp) 48000).2.1 ⟨[1, 2, 3, 4], by simp, by simp⟩

/-- **C116** Signals of four and five samples have the same number of lines, so they are drawn over the same frequency axis although their lines lie at different
frequencies. -/
theorem C116_unequal_fails : ∃ x y : List ℝ, x.length ≠ y.length ∧ ∀ fs : ℝ, ∃ d, Plot.spectrum [x, y] fs = .ok d ∧ d.curves.length = 2 ∧
    (fs ≠ 0 → d.freq.getD 1 0 ≠ fs / y.length) := by
  refine ⟨[1, 0, 0, 0], [1, 0, 0, 0, 0], by simp, fun fs => ?_⟩
  obtain ⟨d, hd, hc⟩ := (C116_lengths [1, 0, 0, 0] [[1, 0, 0, 0, 0]] (by simp) (by simp) fs).2.2 (by simp)
  refine ⟨d, hd, hc, fun hfs => ?_⟩
  have hf : d.freq = rfftfreq 4 fs := by
    obtain ⟨ls, h1, _⟩ := magSpectrum_mapM 4 false [[1, 0, 0, 0], [1, 0, 0, 0, 0]] (by simp)
    have hd' : freqResp (rfftfreq 4 fs) ls = .ok d := by
      rw [← hd]
      unfold Plot.spectrum
      simp only [List.length_cons, List.length_nil]
      rw [if_neg (by norm_num)]
      show _ = (List.mapM (magSpectrum 4 false) _).bind _
      rw [h1]; rfl
    unfold freqResp at hd'
    split at hd'
    · change Except.map _ (Except.map _ (npMax _)) = _ at hd'
      cases hm : npMax (respCurves ls true none).flatten with
      | error e => rw [hm] at hd'; cases hd'
      | ok M => rw [hm] at hd'; cases hd'; rfl
    · cases hd'
  rw [hf]
  simp only [rfftfreq, List.length_cons, List.length_nil]
  norm_num
  intro h
  apply hfs
  have : fs / 4 = fs / 5 := by simpa using h
  linarith

example : ∃ d, Plot.spectrum [sinusoid 48 3 0.5 1] 48000 = .ok d ∧ (d.curves.getD 0 []).getD 3 0 = 20 * logb 10 |0.5| := by
  obtain ⟨d, hd, _, _, _, h⟩ := C116_sinusoid 48 3 (by norm_num) (by norm_num) 0.5 1 48000 (by norm_num)
  exact ⟨d, hd, by rw [h 3 (by norm_num), if_pos rfl]⟩

/-! ### C117 -/

theorem foldl_max_mem (xs : List ℝ) (x : ℝ) : (∀ y ∈ x :: xs, y ≤ xs.foldl max x) ∧ xs.foldl max x ∈ x :: xs := by
  induction xs generalizing x with
  | nil => simp
  | cons a as ih =>
    obtain ⟨h1, h2⟩ := ih (max x a)
    simp only [List.foldl_cons]
    constructor
    · intro y hy
      have hm := h1 (max x a) List.mem_cons_self
      rcases List.mem_cons.1 hy with rfl | hy
      · exact (le_max_left _ _).trans hm
      · rcases List.mem_cons.1 hy with rfl | hy
        · exact (le_max_right _ _).trans hm
        · exact h1 y (List.mem_cons_of_mem _ hy)
    · rcases List.mem_cons.1 h2 with h | h
      · rcases max_choice x a with hc | hc
        · rw [h, hc]; exact List.mem_cons_self
        · rw [h, hc]; exact List.mem_cons_of_mem _ List.mem_cons_self
      · exact List.mem_cons_of_mem _ (List.mem_cons_of_mem _ h)

/-- **C117** The default vertical axis: its top is the largest drawn value, its bottom `ylim` below. -/
theorem C117_axis (freq : List ℝ) (mag : List (List ℝ)) (todb : Bool) (smoothing : Option ℤ) (r : ℤ) (labels : Labels) (d : Curves)
    (h : freqResp freq mag todb smoothing (.below r) labels = .ok d) :
    (∀ c ∈ d.curves, ∀ v ∈ c, v ≤ d.ylim.2) ∧ (∃ c ∈ d.curves, d.ylim.2 ∈ c) ∧ d.ylim.1 = d.ylim.2 - r ∧ d.freq = freq ∧ d.curves.length = mag.length := by
  unfold freqResp at h
  split at h
  swap
  · cases h
  cases hl : legendOf labels (respCurves mag todb smoothing).length smoothing with
  | error e => simp only [hl] at h; cases h
  | ok lg =>
    simp only [hl] at h
    change Except.map _ (Except.map _ (npMax _)) = _ at h
    have hlen : (respCurves mag todb smoothing).length = mag.length := by
      unfold respCurves
      cases todb <;> cases smoothing <;> simp
    generalize respCurves mag todb smoothing = cs at *
    cases hf : cs.flatten with
    | nil => rw [hf] at h; cases h
    | cons x xs =>
      rw [hf] at h
      cases h
      obtain ⟨h1, h2⟩ := foldl_max_mem xs x
      rw [← hf] at h1 h2
      refine ⟨fun c hc v hv => h1 v (List.mem_flatten.2 ⟨c, hc, hv⟩), ?_, rfl, rfl, hlen⟩
      obtain ⟨c, hc, hv⟩ := List.mem_flatten.1 h2
      exact ⟨c, hc, hv⟩

/-- `C117_axis` for two responses in linear units. -/
example : ∃ d, freqResp [1, 2] [[3, 4], [5, 6]] false none (.below 30) .none = .ok d ∧ d.ylim.1 = d.ylim.2 - ((30 : ℤ) : ℝ) ∧ d.curves.length = 2 := by
  have h : ∃ d, freqResp [1, 2] [[3, 4], [5, 6]] false none (.below 30) .none = .ok d := by
    unfold freqResp
    rw [if_pos (by simp)]
    exact ⟨_, rfl⟩
  obtain ⟨d, h⟩ := h
  obtain ⟨-, -, h1, -, h2⟩ := C117_axis _ _ _ _ _ _ _ h
  exact ⟨d, h, h1, h2⟩

theorem dbClipped_floor (x : ℝ) : -280 ≤ dbClipped x ∧ (10e-15 ≤ |x| → dbClipped x = 20 * logb 10 |x|) := by
  have hm : (10e-15 : ℝ) ≤ max |x| 10e-15 := le_max_right _ _
  have h0 : (0 : ℝ) < 10e-15 := by norm_num
  unfold dbClipped db
  simp only [Bool.false_eq_true, if_false]
  constructor
  · rw [abs_of_pos (h0.trans_le hm)]
    have : logb 10 (10 ^ (-14 : ℝ)) ≤ logb 10 (max |x| 10e-15) := by
      apply Real.logb_le_logb_of_le (by norm_num) (by positivity)
      refine le_trans (le_of_eq ?_) hm
      rw [Real.rpow_neg (by norm_num), show (14 : ℝ) = ((14 : ℕ) : ℝ) by norm_num, Real.rpow_natCast]; norm_num
    rw [Real.logb_rpow (by norm_num) (by norm_num)] at this
    linarith
  · intro h
    rw [max_eq_left h, abs_abs]

/-- **C117** Without smoothing the curves are the magnitudes in dB, at least -280 dB (also for zeros), or with `TODB=False` the values themselves. -/
theorem C117_values (freq : List ℝ) (mag : List (List ℝ)) (ylim : YLim) (labels : Labels) :
    (∀ d, freqResp freq mag true none ylim labels = .ok d → ∀ i j, i < mag.length → j < (mag.getD i []).length →
      -280 ≤ (d.curves.getD i []).getD j 0 ∧
      (10e-15 ≤ |(mag.getD i []).getD j 0| → (d.curves.getD i []).getD j 0 = 20 * logb 10 |(mag.getD i []).getD j 0|)) ∧
    (∀ d, freqResp freq mag false none ylim labels = .ok d → d.curves = mag) ∧
    ((∃ a ∈ mag, a.length ≠ freq.length) → ∀ todb smoothing, freqResp freq mag todb smoothing ylim labels = .error .assertionError) := by
  have key : ∀ todb d, freqResp freq mag todb none ylim labels = .ok d → d.curves = respCurves mag todb none := by
    intro todb d h
    unfold freqResp at h
    split at h
    swap
    · cases h
    cases hl : legendOf labels (respCurves mag todb none).length none with
    | error e => simp only [hl] at h; cases h
    | ok lg =>
      simp only [hl] at h
      cases ylim with
      | limits lo hi => cases h; rfl
      | below r =>
        change Except.map _ (Except.map _ (npMax _)) = _ at h
        cases hm : npMax (respCurves mag todb none).flatten with
        | error e => rw [hm] at h; cases h
        | ok M => rw [hm] at h; cases h; rfl
  refine ⟨fun d h i j hi hj => ?_, fun d h => ?_, fun ⟨a, ha, hne⟩ todb sm => ?_⟩
  · have e : (d.curves.getD i []).getD j 0 = dbClipped ((mag.getD i []).getD j 0) := by
      rw [key true d h]
      have hi' : mag.getD i [] = mag[i] := by simp [hi]
      rw [hi'] at hj ⊢
      simp [respCurves, hi, hj]
    rw [e]
    exact dbClipped_floor _
  · rw [key false d h]; rfl
  · unfold freqResp
    rw [if_neg]
    intro h
    exact hne (h a ha)

/-- **C117** The legend without smoothing holds the given labels and leaves them alone, none without labels; with smoothing one entry more. -/
theorem C117_legend_partial (freq : List ℝ) (mag : List (List ℝ)) (todb : Bool) (ylim : YLim) (l : List String) (n : ℤ) (s : String) :
    (∀ d, freqResp freq mag todb none ylim .none = .ok d → d.legend = none) ∧
    (∀ d, freqResp freq mag todb none ylim (.single s) = .ok d → d.legend = some [some s]) ∧
    (∀ d, freqResp freq mag todb none ylim (.tuple l) = .ok d → d.legend = some (l.map some)) ∧
    (∀ d, freqResp freq mag todb none ylim (.list l) = .ok d → d.legend = some (l.map some) ∧ d.callerLabels = some l) ∧
    (∀ d, freqResp freq mag todb (some n) ylim (.single s) = .ok d → d.legend = some [some s, some (smoothingLabel n)]) ∧
    (∀ d, freqResp freq mag todb (some n) ylim (.list l) = .ok d → d.legend = some (l.map some ++ [some (smoothingLabel n)])) ∧
    (∀ d, freqResp freq mag todb (some n) ylim .none = .ok d → d.legend = some (List.replicate mag.length none ++ [some (smoothingLabel n)])) := by
  have hlen : ∀ sm, (respCurves mag todb sm).length = mag.length := by
    intro sm
    unfold respCurves
    cases todb <;> cases sm <;> simp
  have key : ∀ sm labels lg d, legendOf labels mag.length sm = .ok lg → freqResp freq mag todb sm ylim labels = .ok d → d.legend = lg.1 ∧ d.callerLabels = lg.2 := by
    intro sm labels lg d hlg h
    unfold freqResp at h
    split at h
    swap
    · cases h
    simp only [hlen, hlg] at h
    cases ylim with
    | limits lo hi => cases h; exact ⟨rfl, rfl⟩
    | below r =>
      change Except.map _ (Except.map _ (npMax _)) = _ at h
      cases hm : npMax (respCurves mag todb sm).flatten with
      | error e => rw [hm] at h; cases h
      | ok M => rw [hm] at h; cases h; exact ⟨rfl, rfl⟩
  refine ⟨fun d h => (key _ _ _ d rfl h).1, fun d h => (key _ _ _ d rfl h).1, fun d h => (key _ _ _ d rfl h).1,
    fun d h => key _ _ _ d rfl h, fun d h => (key _ _ _ d rfl h).1, fun d h => ?_, fun d h => (key _ _ _ d rfl h).1⟩
  rw [(key _ _ _ d rfl h).1]
  simp

/-- **C117** With smoothing the caller's list of labels grows by the extra entry, and a tuple of labels raises `AttributeError`. -/
theorem C117_labels_fail : (∃ d, freqResp [100] [[1]] true (some 1) (.limits 0 1) (.list ["a"]) = .ok d ∧ d.callerLabels = some ["a", smoothingLabel 1]) ∧
    freqResp [100] [[1]] true (some 1) (.limits 0 1) (.tuple ["a"]) = .error .attributeError := by
  constructor
  · unfold freqResp
    rw [if_pos (by simp)]
    exact ⟨_, rfl, rfl⟩
  · unfold freqResp
    rw [if_pos (by simp)]
    rfl

/-! ### C118 -/

theorem unwrapFrom_small (ps : List ℝ) (prev : ℝ) (hp : |prev| < π / 2) (h : ∀ p ∈ ps, |p| < π / 2) : unwrapFrom prev 0 ps = ps := by
  induction ps generalizing prev with
  | nil => rfl
  | cons p ps ih =>
    have h1 := h p List.mem_cons_self
    have hd : |p - prev| < π := by
      rw [abs_lt] at *
      constructor <;> linarith [h1.1, h1.2, hp.1, hp.2]
    unfold unwrapFrom
    simp only [if_pos hd, add_zero]
    rw [ih p h1 fun q hq => h q (List.mem_cons_of_mem _ hq)]

/-- **C118** Where every value lies above the floor in the order of complex numbers (real part first, then imaginary part), magnitude in dB and phase are drawn. -/
theorem C118_partial (H : List ℂ) (hH : ∀ z ∈ H, 10e-15 < z.re ∨ (z.re = 10e-15 ∧ 0 ≤ z.im)) : transferFunction H = (H.map fun z => 20 * logb 10 ‖z‖, H.map Complex.arg) := by
  have hc : H.map clipC = H := by
    conv_rhs => rw [← List.map_id H]
    refine List.map_congr_left fun z hz => ?_
    unfold clipC
    rw [if_pos (hH z hz)]; rfl
  unfold transferFunction
  simp only [hc]
  congr 1
  · refine List.map_congr_left fun z _ => ?_
    unfold db
    simp
  · have hs : ∀ p ∈ H.map Complex.arg, |p| < π / 2 := by
      intro p hp
      obtain ⟨z, hz, rfl⟩ := List.mem_map.1 hp
      rw [Complex.abs_arg_lt_pi_div_two_iff]
      left
      rcases hH z hz with h | ⟨h, -⟩
      · exact lt_trans (by norm_num) h
      · rw [h]; norm_num
    cases hl : H.map Complex.arg with
    | nil => rfl
    | cons p ps =>
      rw [hl] at hs
      show p :: unwrapFrom p 0 ps = _
      rw [unwrapFrom_small ps p (hs p List.mem_cons_self) fun q hq => hs q (List.mem_cons_of_mem _ hq)]

theorem unwrapFrom_spec (ps : List ℝ) (prev corr : ℝ) (hc : ∃ k : ℤ, corr = 2 * π * k) :
    (unwrapFrom prev corr ps).length = ps.length ∧
    (∀ i < ps.length, ∃ k : ℤ, (unwrapFrom prev corr ps).getD i 0 = ps.getD i 0 + 2 * π * k) ∧
    (0 < ps.length → |(unwrapFrom prev corr ps).getD 0 0 - (prev + corr)| ≤ π) ∧
    (∀ i, i + 1 < ps.length → |(unwrapFrom prev corr ps).getD (i + 1) 0 - (unwrapFrom prev corr ps).getD i 0| ≤ π) := by
  induction ps generalizing prev corr with
  | nil => simp [unwrapFrom]
  | cons p ps ih =>
    have hpi := pi_pos
    obtain ⟨k, hk⟩ := hc
    obtain ⟨m, hm1, hm2⟩ : ∃ c : ℝ, (∃ k : ℤ, c = 2 * π * k) ∧ unwrapFrom prev corr (p :: ps) = (p + c) :: unwrapFrom p c ps ∧ |p + c - (prev + corr)| ≤ π := by
      have hf1 := Int.floor_le ((p - prev + π) / (2 * π))
      have hf2 := Int.lt_floor_add_one ((p - prev + π) / (2 * π))
      set f : ℤ := ⌊(p - prev + π) / (2 * π)⌋ with hf
      rw [le_div_iff₀ (by positivity)] at hf1
      rw [div_lt_iff₀ (by positivity)] at hf2
      refine ⟨_, ?_, rfl, ?_⟩
      · split_ifs with h1 h2
        · exact ⟨k, by rw [hk]; ring⟩
        · unfold pyMod at h2
          rw [← hf] at h2
          refine ⟨k - f + 1, ?_⟩
          rw [hk]; push_cast; linarith [h2.1]
        · refine ⟨k - f, ?_⟩
          unfold pyMod
          rw [← hf, hk]; push_cast; ring
      · split_ifs with h1 h2
        · rw [show p + (corr + 0) - (prev + corr) = p - prev by ring]; exact h1.le
        · rw [show p + (corr + (π - (p - prev))) - (prev + corr) = π by ring, abs_of_pos hpi]
        · rw [show p + (corr + (pyMod (p - prev + π) (2 * π) - π - (p - prev))) - (prev + corr) = pyMod (p - prev + π) (2 * π) - π by ring]
          unfold pyMod
          rw [← hf, abs_le]
          constructor <;> nlinarith
    obtain ⟨hm2, hm3⟩ := hm2
    obtain ⟨i1, i2, i3, i4⟩ := ih p m hm1
    rw [hm2]
    refine ⟨by simp [i1], ?_, fun _ => by simpa using hm3, ?_⟩
    · intro i hi
      cases i with
      | zero => obtain ⟨k, hk⟩ := hm1; exact ⟨k, by simp [hk]⟩
      | succ i => simpa using i2 i (by simpa using hi)
    · intro i hi
      cases i with
      | zero => simpa using i3 (by simpa using hi)
      | succ i => simpa using i4 i (by simpa using hi)

/-- **C118** What unwrapping does with any phases: whole turns are added so that no step is larger than half a turn; the first phase stays. -/
theorem C118_unwrap (ps : List ℝ) : (unwrap ps).length = ps.length ∧ (unwrap ps).getD 0 0 = ps.getD 0 0 ∧
    (∀ i < ps.length, ∃ k : ℤ, (unwrap ps).getD i 0 = ps.getD i 0 + 2 * π * k) ∧
    (∀ i, i + 1 < ps.length → |(unwrap ps).getD (i + 1) 0 - (unwrap ps).getD i 0| ≤ π) := by
  cases ps with
  | nil => simp [unwrap]
  | cons p ps =>
    obtain ⟨i1, i2, i3, i4⟩ := unwrapFrom_spec ps p 0 ⟨0, by simp⟩
    refine ⟨by simp [unwrap, i1], rfl, ?_, ?_⟩
    · intro i hi
      cases i with
      | zero => exact ⟨0, by simp [unwrap]⟩
      | succ i => simpa [unwrap] using i2 i (by simpa using hi)
    · intro i hi
      cases i with
      | zero => simpa [unwrap] using i3 (by simpa using hi)
      | succ i => simpa [unwrap] using i4 i (by simpa using hi)

/-- **C118** The clipping of the real part leaves nothing to unwrap: all drawn phases lie within a quarter turn, whatever the transfer function. -/
theorem C118_quarter_turn (H : List ℂ) : (transferFunction H).2.length = H.length ∧ ∀ p ∈ (transferFunction H).2, |p| < π / 2 := by
  have hs : ∀ p ∈ (H.map clipC).map Complex.arg, |p| < π / 2 := by
    intro p hp
    obtain ⟨z, hz, rfl⟩ := List.mem_map.1 hp
    obtain ⟨y, hy, rfl⟩ := List.mem_map.1 hz
    rw [Complex.abs_arg_lt_pi_div_two_iff]
    left
    unfold clipC
    split_ifs with h
    · rcases h with h | ⟨h, -⟩
      · exact lt_trans (by norm_num) h
      · rw [h]; norm_num
    · rw [Complex.ofReal_re]; norm_num
  have he : (transferFunction H).2 = (H.map clipC).map Complex.arg := by
    show unwrap _ = _
    cases hl : (H.map clipC).map Complex.arg with
    | nil => rfl
    | cons p ps =>
      rw [hl] at hs
      show p :: unwrapFrom p 0 ps = _
      rw [unwrapFrom_small ps p (hs p List.mem_cons_self) fun q hq => hs q (List.mem_cons_of_mem _ hq)]
  rw [he]
  exact ⟨by simp, hs⟩

/-- **C118** Every other value, all those with negative real part among them, is drawn as -280 dB with phase zero, whatever it is. -/
theorem C118_lost (z : ℂ) (hz : z.re < 10e-15 ∨ (z.re = 10e-15 ∧ z.im < 0)) : transferFunction [z] = ([-280], [0]) := by
  have hc : clipC z = (10e-15 : ℝ) := by
    unfold clipC
    rw [if_neg]
    rcases hz with hz | ⟨hz, hi⟩
    · rintro (h | ⟨h, _⟩) <;> linarith
    · rintro (h | ⟨_, h⟩) <;> linarith
  unfold transferFunction
  simp only [List.map_cons, List.map_nil, hc]
  congr 1
  · rw [Complex.norm_real, Real.norm_eq_abs]
    unfold db
    simp only [Bool.false_eq_true, if_false, abs_abs]
    rw [abs_of_pos (by norm_num), show (10e-15 : ℝ) = 10 ^ (-14 : ℝ) by
      rw [Real.rpow_neg (by norm_num), show (14 : ℝ) = ((14 : ℕ) : ℝ) by norm_num, Real.rpow_natCast]; norm_num, Real.logb_rpow (by norm_num) (by norm_num)]
    norm_num
  · rw [Complex.arg_ofReal_of_nonneg (by norm_num)]
    rfl

/-- **C118** So the transfer function -1 (0 dB, phase pi) is drawn as -280 dB with phase zero. -/
theorem C118_fails : transferFunction [-1] = ([-280], [0]) ∧ 20 * logb 10 ‖(-1 : ℂ)‖ = 0 ∧ Complex.arg (-1) = π :=
  ⟨C118_lost _ (Or.inl (by norm_num)), by simp, Complex.arg_neg_one⟩

example : transferFunction [1, 1 + Complex.I] = ([20 * logb 10 ‖(1 : ℂ)‖, 20 * logb 10 ‖1 + Complex.I‖], [Complex.arg 1, Complex.arg (1 + Complex.I)]) := by
  have := C118_partial [1, 1 + Complex.I] (by
    intro z hz
    rcases List.mem_cons.1 hz with rfl | hz
    · simp; norm_num
    · rw [List.mem_singleton.1 hz]; simp; norm_num)
  simpa using this

/-- `C118_lost`: a response of minus one. -/
example : transferFunction [(-1 : ℂ)] = ([-280], [0]) := C118_lost (-1) (.inl (by norm_num))

end Verif.Props
