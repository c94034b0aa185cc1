import Mathlib.Data.List.GetD
import Mathlib.Tactic
import Verif.Model.Process
import Verif.Proofs.Vbap

/-!
C56 (`match_loudness`), C57 (`frac_octave_smoothing`), C58 (`energy_decay`), C60 (`pulsed_noise`), C61 (`resample_hrirs`).
-/

namespace Verif.Props

open Real Verif.Process Verif.Sig

/-! ### C56 -/

theorem foldl_max_greatest (v : ℝ) (vs : List ℝ) : IsGreatest {y | y ∈ v :: vs} (vs.foldl max v) := by
  induction vs generalizing v with
  | nil => simp [IsGreatest, upperBounds]
  | cons w vs ih =>
      rw [List.foldl_cons]
      obtain ⟨h1, h2⟩ := ih (max v w)
      constructor
      · rcases List.mem_cons.1 h1 with h | h
        · rcases max_choice v w with h' | h' <;> rw [h, h'] <;> simp
        · simp [h]
      · intro y hy
        have hm : max v w ≤ vs.foldl max (max v w) := h2 (by simp)
        rcases List.mem_cons.1 hy with h | h
        · rw [h]; exact (le_max_left v w).trans hm
        · rcases List.mem_cons.1 h with h | h
          · rw [h]; exact (le_max_right v w).trans hm
          · exact h2 (by simp [h])

/-- Root mean square of channel `j`. -/
noncomputable def rms {n c : ℕ} (x : Matrix (Fin n) (Fin c) ℝ) (j : Fin c) : ℝ := √((∑ i, x i j ^ 2) / n)

theorem loudest_spec {n c : ℕ} (x : Matrix (Fin n) (Fin c) ℝ) (L : ℝ) (hL : IsGreatest (Set.range (rms x)) L) : loudest x = .ok L := by
  unfold loudest
  have hset : ∀ l : List ℝ, l = (List.finRange c).map (fun j => √((∑ i, x i j ^ 2) / n)) → {y | y ∈ l} = Set.range (rms x) := by
    rintro l rfl
    ext y
    simp only [Set.mem_setOf_eq, List.mem_map, List.mem_finRange, true_and, Set.mem_range, rms]
  split
  · rename_i h
    have := hset [] h.symm
    rw [← this] at hL
    simpa using hL.1
  · rename_i v vs h
    have := hset (v :: vs) h.symm
    have h2 := foldl_max_greatest v vs
    rw [this] at h2
    rw [h2.unique hL]

theorem peak_spec {n c : ℕ} (x : Matrix (Fin n) (Fin c) ℝ) (hn : 0 < n) (hc : 0 < c) :
    ∃ p, peakOf x = .ok p ∧ IsGreatest (Set.range fun ij : Fin n × Fin c => |x ij.1 ij.2|) p := by
  unfold peakOf
  have hset : ∀ l : List ℝ, l = ((List.finRange n).flatMap fun i => (List.finRange c).map fun j => |x i j|) →
      {y | y ∈ l} = Set.range fun ij : Fin n × Fin c => |x ij.1 ij.2| := by
    rintro l rfl
    ext y
    simp only [Set.mem_setOf_eq, List.mem_flatMap, List.mem_map, List.mem_finRange, true_and, Set.mem_range, Prod.exists]
  split
  · rename_i h
    have := hset [] h.symm
    have hm : |x ⟨0, hn⟩ ⟨0, hc⟩| ∈ Set.range fun ij : Fin n × Fin c => |x ij.1 ij.2| := ⟨(⟨0, hn⟩, ⟨0, hc⟩), rfl⟩
    rw [← this] at hm
    simp at hm
  · rename_i v vs h
    refine ⟨_, rfl, ?_⟩
    rw [← hset (v :: vs) h.symm]
    exact foldl_max_greatest v vs

theorem rms_scale {n c : ℕ} (x : Matrix (Fin n) (Fin c) ℝ) (s : ℝ) (hs : 0 ≤ s) (j : Fin c) : rms (fun i j => s * x i j) j = s * rms x j := by
  unfold rms
  rw [show (∑ i, (s * x i j) ^ 2) / (n : ℝ) = s ^ 2 * ((∑ i, x i j ^ 2) / n) by
    simp only [mul_pow, ← Finset.mul_sum]; ring, sqrt_mul (sq_nonneg s), sqrt_sq hs]

/-- **C56**: the result is a positive multiple of the input, never exceeds one in magnitude, and has the target's loudness (largest channel root mean square)
unless the scaled input exceeded one; in that case its peak is exactly one. -/
theorem C56_match {n m c d : ℕ} (x : Matrix (Fin n) (Fin c) ℝ) (target : Matrix (Fin m) (Fin d) ℝ) (lin lt : ℝ)
    (hx : IsGreatest (Set.range (rms x)) lin) (ht : IsGreatest (Set.range (rms target)) lt) (hlin : 0 < lin) (hlt : 0 < lt) :
    ∃ out s, matchLoudness x target = .ok out ∧ 0 < s ∧ (∀ i j, out i j = s * x i j) ∧ (∀ i j, |out i j| ≤ 1) ∧
      ((∀ i j, |lt / lin * x i j| ≤ 1) → IsGreatest (Set.range (rms out)) lt) ∧
      ((∃ i j, 1 < |lt / lin * x i j|) → ∃ i j, |out i j| = 1) := by
  obtain ⟨j0, hj0⟩ := hx.1
  have hc : 0 < c := Fin.pos j0
  have hn : 0 < n := by
    rcases Nat.eq_zero_or_pos n with h | h
    · subst h; simp [rms] at hj0; linarith
    · exact h
  have hk : 0 < lt / lin := div_pos hlt hlin
  have hform : (fun i j => x i j * lt / lin) = (fun i j => lt / lin * x i j : Matrix (Fin n) (Fin c) ℝ) := by funext i j; ring
  obtain ⟨p, hp, hpg⟩ := peak_spec (fun i j => lt / lin * x i j : Matrix (Fin n) (Fin c) ℝ) hn hc
  have hle : ∀ i j, |lt / lin * x i j| ≤ p := fun i j => hpg.2 ⟨(i, j), rfl⟩
  obtain ⟨⟨i1, j1⟩, hij⟩ := hpg.1
  simp only at hij
  unfold matchLoudness
  rw [loudest_spec x lin hx, loudest_spec target lt ht]
  change ∃ out s, Except.map _ (peakOf fun i j => x i j * lt / lin) = _ ∧ _
  rw [hform, hp]
  by_cases hp1 : p > 1
  · refine ⟨fun i j => lt / lin * x i j / p, lt / lin / p, ?_, by positivity, fun i j => by ring, ?_, ?_, ?_⟩
    · exact congrArg Except.ok ((if_pos hp1).trans (by funext i j; ring))
    · intro i j
      rw [abs_div, abs_of_pos (show 0 < p by linarith), div_le_one (by linarith)]
      exact hle i j
    · intro h; have := h i1 j1; linarith
    · intro _
      refine ⟨i1, j1, ?_⟩
      rw [abs_div, hij, abs_of_pos (show 0 < p by linarith), div_self (by linarith)]
  · refine ⟨fun i j => lt / lin * x i j, lt / lin, ?_, hk, fun i j => rfl, ?_, ?_, ?_⟩
    · exact congrArg Except.ok (if_neg hp1)
    · intro i j; have := hle i j; linarith
    · intro _
      constructor
      · exact ⟨j0, by rw [rms_scale _ _ hk.le, hj0]; field_simp⟩
      · rintro _ ⟨j, rfl⟩
        rw [rms_scale _ _ hk.le]
        have : rms x j ≤ lin := hx.2 ⟨j, rfl⟩
        calc lt / lin * rms x j ≤ lt / lin * lin := mul_le_mul_of_nonneg_left this hk.le
          _ = lt := by field_simp
    · rintro ⟨i, j, h⟩; have := hle i j; linarith

/-- One sample, one channel: loudness 2. -/
example : IsGreatest (Set.range (rms (fun _ _ => 2 : Matrix (Fin 1) (Fin 1) ℝ))) 2 := by
  have h : ∀ j, rms (fun _ _ => 2 : Matrix (Fin 1) (Fin 1) ℝ) j = 2 := by
    intro j; simp only [rms, Finset.univ_unique, Finset.sum_const, Finset.card_singleton]; norm_num
  constructor
  · exact ⟨0, h 0⟩
  · rintro _ ⟨j, rfl⟩; rw [h j]

/-- **C56**: signals without channels or samples have no maximum: `ValueError`. -/
theorem C56_reject {n m d : ℕ} (x : Matrix (Fin n) (Fin 0) ℝ) (target : Matrix (Fin m) (Fin d) ℝ) :
    matchLoudness x target = .error .valueError := rfl

/-! ### C57 -/

theorem octave_gt_one (sn : ℝ) (hs : 0 < sn) : (1 : ℝ) < 2 ^ (1 / (2 * sn)) := one_lt_rpow (by norm_num) (by positivity)

/-- **C57**: the averaging window of every bin is a non-empty part of the spectrum and contains the bin itself. -/
theorem C57_window (sn : ℝ) (hs : 0 < sn) (n idx : ℕ) (hi : idx < n) :
    0 ≤ smoothLo sn idx ∧ smoothLo sn idx ≤ idx ∧ (idx : ℤ) < smoothHi sn n idx ∧ smoothHi sn n idx ≤ n := by
  have hr := octave_gt_one sn hs
  unfold smoothLo smoothHi
  generalize (2 : ℝ) ^ (1 / (2 * sn)) = r at hr
  refine ⟨Int.floor_nonneg.2 (by positivity), ?_, ?_, min_le_right _ _⟩
  · have : ⌊(idx : ℝ) / r⌋ ≤ ⌊(idx : ℝ)⌋ := Int.floor_le_floor (div_le_self (by positivity) hr.le)
    simpa using this
  · rw [lt_min_iff]
    refine ⟨?_, by exact_mod_cast hi⟩
    rcases Nat.eq_zero_or_pos idx with h | h
    · subst h; simp
    · rw [lt_max_iff]; left
      rw [Int.lt_ceil]
      have : (0 : ℝ) < idx := by exact_mod_cast h
      push_cast; nlinarith

example : (0 : ℝ) < 3 ∧ 5 < 8 := by norm_num

theorem hamming_length (M : ℕ) : (hamming M).length = M := by
  unfold hamming; split
  · simp; omega
  · split <;> simp_all

theorem hamming_pos (M : ℕ) (w : ℝ) (h : w ∈ hamming M) : 0 < w := by
  unfold hamming at h
  split at h
  · simp at h
  · split at h
    · simp at h; rw [h]; norm_num
    · obtain ⟨i, _, rfl⟩ := List.mem_map.1 h
      have := neg_one_le_cos (π * (1 - M + 2 * i) / (M - 1))
      norm_num; linarith

/-- The window of the code. -/
noncomputable def winOf (weighted : Bool) (M : ℕ) : List ℝ := if weighted then hamming M else List.replicate M 1

theorem winOf_length (weighted : Bool) (M : ℕ) : (winOf weighted M).length = M := by
  unfold winOf; split
  · exact hamming_length M
  · simp

theorem winOf_pos (weighted : Bool) (M : ℕ) (w : ℝ) (h : w ∈ winOf weighted M) : 0 < w := by
  unfold winOf at h; split at h
  · exact hamming_pos M w h
  · rw [List.eq_of_mem_replicate h]; norm_num

theorem sum_pos_of_pos (l : List ℝ) (hl : l ≠ []) (h : ∀ x ∈ l, 0 < x) : 0 < l.sum := by
  induction l with
  | nil => exact absurd rfl hl
  | cons a l ih =>
      rw [List.sum_cons]
      rcases eq_or_ne l [] with h0 | h0
      · subst h0; simpa using h a (by simp)
      · have := ih h0 (fun x hx => h x (by simp [hx])); have := h a (by simp); linarith

theorem zip_ge (w v : List ℝ) (m : ℝ) (hlen : w.length = v.length) (hw : ∀ x ∈ w, 0 < x) (hv : ∀ x ∈ v, m ≤ x) :
    m * w.sum ≤ (List.zipWith (· * ·) w v).sum := by
  induction w generalizing v with
  | nil => simp
  | cons a w ih =>
      match v, hlen with
      | b :: v, hlen =>
          simp only [List.zipWith_cons_cons, List.sum_cons]
          have h1 := ih v (by simpa using hlen) (fun x hx => hw x (by simp [hx])) (fun x hx => hv x (by simp [hx]))
          have h2 := hw a (by simp)
          have h3 := hv b (by simp)
          nlinarith

theorem zip_le (w v : List ℝ) (m : ℝ) (hlen : w.length = v.length) (hw : ∀ x ∈ w, 0 < x) (hv : ∀ x ∈ v, x ≤ m) :
    (List.zipWith (· * ·) w v).sum ≤ m * w.sum := by
  induction w generalizing v with
  | nil => simp
  | cons a w ih =>
      match v, hlen with
      | b :: v, hlen =>
          simp only [List.zipWith_cons_cons, List.sum_cons]
          have h1 := ih v (by simpa using hlen) (fun x hx => hw x (by simp [hx])) (fun x hx => hv x (by simp [hx]))
          have h2 := hw a (by simp)
          have h3 := hv b (by simp)
          nlinarith

/-- The code's window and slice, with natural number bounds. -/
theorem smoothAt_eq (a : List ℝ) (sn : ℝ) (hs : 0 < sn) (weighted : Bool) (idx : ℕ) (hi : idx < a.length) :
    ∃ lo hi : ℕ, (smoothLo sn idx = lo ∧ smoothHi sn a.length idx = hi ∧ lo ≤ idx ∧ idx < hi ∧ hi ≤ a.length) ∧
      smoothAt a sn weighted idx = 1 / (winOf weighted (hi - lo)).sum * (List.zipWith (· * ·) (winOf weighted (hi - lo)) ((a.take hi).drop lo)).sum := by
  obtain ⟨h1, h2, h3, h4⟩ := C57_window sn hs a.length idx hi
  obtain ⟨lo, hlo⟩ := Int.eq_ofNat_of_zero_le h1
  obtain ⟨hi', hhi⟩ := Int.eq_ofNat_of_zero_le (show 0 ≤ smoothHi sn a.length idx by omega)
  refine ⟨lo, hi', ⟨hlo, hhi, by omega, by omega, by omega⟩, ?_⟩
  have e : ((hi' : ℤ) - lo).toNat = hi' - lo := by omega
  have b1 : sliceBound a.length (lo : ℤ) = lo := by simp only [sliceBound]; omega
  have b2 : sliceBound a.length (hi' : ℤ) = hi' := by simp only [sliceBound]; omega
  simp only [smoothAt, hlo, hhi, e, pySlice, b1, b2, winOf]

/-- **C57**: the result has as many values as the input. -/
theorem C57_length (a : List ℝ) (sn : ℝ) (weighted : Bool) : (fracOctaveSmoothing a sn weighted).length = a.length := by
  simp [fracOctaveSmoothing]

theorem smoothing_getD (a : List ℝ) (sn : ℝ) (weighted : Bool) (idx : ℕ) (hi : idx < a.length) :
    (fracOctaveSmoothing a sn weighted).getD idx 0 = smoothAt a sn weighted idx := by
  simp [fracOctaveSmoothing, List.getD_eq_getElem?_getD, hi]

theorem slice_mem (a : List ℝ) (lo hi : ℕ) (m : ℝ) (h : m ∈ (a.take hi).drop lo) : ∃ j, lo ≤ j ∧ j < hi ∧ j < a.length ∧ m = a.getD j 0 := by
  obtain ⟨i, hi', rfl⟩ := List.getElem_of_mem h
  simp only [List.length_drop, List.length_take] at hi'
  refine ⟨lo + i, by omega, by omega, by omega, ?_⟩
  rw [List.getElem_drop, List.getElem_take, List.getD_eq_getElem?_getD, List.getElem?_eq_getElem (by omega)]
  rfl

theorem exists_extremes (l : List ℝ) (hl : l ≠ []) : (∃ x ∈ l, ∀ y ∈ l, x ≤ y) ∧ ∃ x ∈ l, ∀ y ∈ l, y ≤ x := by
  induction l with
  | nil => exact absurd rfl hl
  | cons a l ih =>
      rcases eq_or_ne l [] with h0 | h0
      · subst h0; simp
      · obtain ⟨⟨x, hx, hx'⟩, ⟨y, hy, hy'⟩⟩ := ih h0
        constructor
        · rcases le_total a x with h | h
          · exact ⟨a, by simp, fun z hz => by rcases List.mem_cons.1 hz with rfl | hz; exacts [le_rfl, h.trans (hx' z hz)]⟩
          · exact ⟨x, by simp [hx], fun z hz => by rcases List.mem_cons.1 hz with rfl | hz; exacts [h, hx' z hz]⟩
        · rcases le_total a y with h | h
          · exact ⟨y, by simp [hy], fun z hz => by rcases List.mem_cons.1 hz with rfl | hz; exacts [h, hy' z hz]⟩
          · exact ⟨a, by simp, fun z hz => by rcases List.mem_cons.1 hz with rfl | hz; exacts [le_rfl, (hy' z hz).trans h]⟩

/-- **C57**: every value lies between two input values of its window. -/
theorem C57_between (a : List ℝ) (sn : ℝ) (hs : 0 < sn) (weighted : Bool) (idx : ℕ) (hi : idx < a.length) :
    ∃ j k : ℕ, smoothLo sn idx ≤ j ∧ j < smoothHi sn a.length idx ∧ smoothLo sn idx ≤ k ∧ k < smoothHi sn a.length idx ∧
      a.getD j 0 ≤ (fracOctaveSmoothing a sn weighted).getD idx 0 ∧ (fracOctaveSmoothing a sn weighted).getD idx 0 ≤ a.getD k 0 := by
  rw [smoothing_getD a sn weighted idx hi]
  obtain ⟨lo, hi', ⟨h1, h2, h3, h4, h5⟩, h6⟩ := smoothAt_eq a sn hs weighted idx hi
  have hlen : (winOf weighted (hi' - lo)).length = ((a.take hi').drop lo).length := by
    rw [winOf_length]; simp; omega
  have hne : (a.take hi').drop lo ≠ [] := by
    rw [← List.length_pos_iff, ← hlen, winOf_length]; omega
  have hwne : winOf weighted (hi' - lo) ≠ [] := by rw [← List.length_pos_iff, winOf_length]; omega
  have hwp := winOf_pos weighted (hi' - lo)
  have hsum := sum_pos_of_pos _ hwne hwp
  obtain ⟨⟨x, hx, hx'⟩, ⟨y, hy, hy'⟩⟩ := exists_extremes _ hne
  obtain ⟨j, j1, j2, -, hj⟩ := slice_mem a lo hi' x hx
  obtain ⟨k, k1, k2, -, hk⟩ := slice_mem a lo hi' y hy
  refine ⟨j, k, by omega, by omega, by omega, by omega, ?_, ?_⟩
  · rw [h6, ← hj, one_div, inv_mul_eq_div, le_div_iff₀ hsum]
    exact zip_ge _ _ _ hlen hwp hx'
  · rw [h6, ← hk, one_div, inv_mul_eq_div, div_le_iff₀ hsum]
    exact zip_le _ _ _ hlen hwp hy'

/-- `C57_between`: third octave smoothing of four values. -/
example : ∃ j k : ℕ, j < 4 ∧ k < 4 ∧ [1, 2, 0, (5 : ℝ)].getD j 0 ≤ (fracOctaveSmoothing [1, 2, 0, 5] 3 true).getD 2 0 ∧
    (fracOctaveSmoothing [1, 2, 0, 5] 3 true).getD 2 0 ≤ [1, 2, 0, (5 : ℝ)].getD k 0 := by
  obtain ⟨j, k, -, h2, -, h4, h5, h6⟩ := C57_between [1, 2, 0, 5] 3 (by norm_num) true 2 (by simp)
  have hle : smoothHi 3 ([1, 2, 0, 5] : List ℝ).length 2 ≤ 4 := by simp [smoothHi]
  exact ⟨j, k, by omega, by omega, h5, h6⟩

/-- **C57**: a constant spectrum is preserved. -/
theorem C57_const (n : ℕ) (c sn : ℝ) (hs : 0 < sn) (weighted : Bool) : fracOctaveSmoothing (List.replicate n c) sn weighted = List.replicate n c := by
  apply List.ext_getElem
  · simp [fracOctaveSmoothing]
  · intro i h1 h2
    have hi : i < (List.replicate n c).length := by simpa [fracOctaveSmoothing] using h1
    obtain ⟨j, k, -, j2, -, k2, h3, h4⟩ := C57_between (List.replicate n c) sn hs weighted i hi
    have hw := C57_window sn hs (List.replicate n c).length i hi
    have hj : j < n := by simp only [List.length_replicate] at j2 hw; omega
    have hk : k < n := by simp only [List.length_replicate] at k2 hw; omega
    have e1 : (List.replicate n c).getD j 0 = c := by simp [List.getD_eq_getElem?_getD, hj]
    have e2 : (List.replicate n c).getD k 0 = c := by simp [List.getD_eq_getElem?_getD, hk]
    rw [e1] at h3
    rw [e2] at h4
    have := le_antisymm h4 h3
    rw [List.getD_eq_getElem?_getD, List.getElem?_eq_getElem h1, Option.getD_some] at this
    rw [this, List.getElem_replicate]

/-- `C57_const`: five equal values. -/
example : fracOctaveSmoothing (List.replicate 5 (-2)) 3 true = List.replicate 5 (-2) := C57_const 5 (-2) 3 (by norm_num) true

theorem zip_linear (w u v : List ℝ) (α β : ℝ) (h : u.length = v.length) :
    (List.zipWith (· * ·) w (List.zipWith (fun x y => α * x + β * y) u v)).sum =
      α * (List.zipWith (· * ·) w u).sum + β * (List.zipWith (· * ·) w v).sum := by
  induction w generalizing u v with
  | nil => simp
  | cons a w ih =>
      match u, v, h with
      | [], [], _ => simp
      | x :: u, y :: v, h =>
          simp only [List.zipWith_cons_cons, List.sum_cons]
          rw [ih u v (by simpa using h)]; ring

/-- **C57**: smoothing is linear. -/
theorem C57_linear_partial (a b : List ℝ) (hab : a.length = b.length) (α β sn : ℝ) (hs : 0 < sn) (weighted : Bool) :
    fracOctaveSmoothing (List.zipWith (fun x y => α * x + β * y) a b) sn weighted =
      List.zipWith (fun x y => α * x + β * y) (fracOctaveSmoothing a sn weighted) (fracOctaveSmoothing b sn weighted) := by
  apply List.ext_getElem
  · simp [fracOctaveSmoothing]
  · intro i h1 h2
    have hi : i < a.length := by simp [fracOctaveSmoothing] at h1; omega
    simp only [fracOctaveSmoothing, List.getElem_map, List.getElem_range, List.getElem_zipWith]
    obtain ⟨lo, hi', ⟨e1, e2, _⟩, e3⟩ := smoothAt_eq a sn hs weighted i hi
    obtain ⟨lo', hi'', ⟨f1, f2, _⟩, f3⟩ := smoothAt_eq b sn hs weighted i (by omega)
    obtain ⟨lo3, hi3, ⟨g1, g2, _⟩, g3⟩ := smoothAt_eq (List.zipWith (fun x y => α * x + β * y) a b) sn hs weighted i (by simp; omega)
    have hl : (List.zipWith (fun x y => α * x + β * y) a b).length = a.length := by simp; omega
    rw [hl] at g2
    rw [← hab] at f2
    obtain rfl : lo = lo' := by omega
    obtain rfl : hi' = hi'' := by omega
    obtain rfl : lo = lo3 := by omega
    obtain rfl : hi' = hi3 := by omega
    rw [e3, f3, g3, List.take_zipWith, List.drop_zipWith, zip_linear _ _ _ _ _ (by simp [hab])]
    ring

example : ([1, 2, 3] : List ℝ).length = ([0, 5, 1] : List ℝ).length := rfl

theorem smooth_two (a b : ℝ) (sn : ℝ) (hs : 1 ≤ sn) : fracOctaveSmoothing [a, b] sn true = [a, (a + b) / 2] := by
  have hr := octave_gt_one sn (by linarith)
  have hr2 : (2 : ℝ) ^ (1 / (2 * sn)) ≤ 2 := by
    calc (2 : ℝ) ^ (1 / (2 * sn)) ≤ 2 ^ (1 : ℝ) := rpow_le_rpow_of_exponent_le (by norm_num) (by rw [div_le_one (by linarith)]; linarith)
      _ = 2 := rpow_one 2
  have l0 : smoothLo sn 0 = 0 := by simp [smoothLo]
  have h0 : smoothHi sn 2 0 = 1 := by simp [smoothHi]
  have l1 : smoothLo sn 1 = 0 := by
    unfold smoothLo
    generalize (2 : ℝ) ^ (1 / (2 * sn)) = r at *
    rw [Int.floor_eq_iff]
    have hp : 0 < r := by linarith
    push_cast
    refine ⟨by positivity, ?_⟩
    rw [zero_add, div_lt_one hp]; exact hr
  have h1 : smoothHi sn 2 1 = 2 := by
    unfold smoothHi
    generalize (2 : ℝ) ^ (1 / (2 * sn)) = r at *
    have : ⌈((1 : ℕ) : ℝ) * r⌉ = 2 := by rw [Int.ceil_eq_iff]; push_cast; constructor <;> linarith
    rw [this]; norm_num
  have w1 : hamming 1 = [1] := rfl
  have w2 : hamming 2 = [0.08, 0.08] := by
    norm_num [hamming, List.range_succ]
  simp only [fracOctaveSmoothing, List.length_cons, List.length_nil, List.range_succ, List.range_zero, List.nil_append, List.cons_append, List.map_cons, List.map_nil]
  simp only [smoothAt, List.length_cons, List.length_nil, zero_add, Nat.reduceAdd, l0, h0, l1, h1, pySlice, sliceBound, if_true]
  have t2 : Int.toNat 2 = 2 := rfl
  norm_num [w1, w2, t2]
  ring

/-- **C57** fails for integer input arrays: `zeros_like` makes the result an integer array, the means are truncated, and smoothing is not even homogeneous. -/
theorem C57_integer_fails : ∃ a : List ℤ, ∀ sn : ℝ, 1 ≤ sn →
    fracOctaveSmoothingInt (a.map (2 * ·)) sn true ≠ (fracOctaveSmoothingInt a sn true).map (2 * ·) := by
  refine ⟨[0, 1], fun sn hs => ?_⟩
  simp only [fracOctaveSmoothingInt, List.map_cons, List.map_nil]
  rw [smooth_two _ _ _ hs, smooth_two _ _ _ hs]
  norm_num [pyInt]

/-! ### C58 -/

theorem dB10_mono {x y : ℝ} (h : x ≤ y) : dB10 x ≤ dB10 y := by
  unfold dB10
  split
  · exact bot_le
  · rw [if_neg (by linarith)]
    apply WithBot.coe_le_coe.2
    have : logb 10 x ≤ logb 10 y := logb_le_logb_of_le (by norm_num) (by linarith) h
    linarith

theorem tail_energy_mono (p : List ℝ) (i j : ℕ) (h : i ≤ j) : ((p.drop j).map (· ^ 2)).sum ≤ ((p.drop i).map (· ^ 2)).sum := by
  obtain ⟨k, rfl⟩ : ∃ k, j = i + k := ⟨j - i, by omega⟩
  rw [← List.drop_drop]
  generalize p.drop i = q
  induction k generalizing q with
  | zero => simp
  | succ k ih =>
      match q with
      | [] => simp
      | a :: q =>
          rw [List.drop_succ_cons, List.map_cons, List.sum_cons]
          exact (ih (by omega) q).trans (by have := sq_nonneg a; linarith)

/-- **C58** (partial): the decay curve does not increase.  Missing: the first value is not 0 dB, see `C58_first_value` and `C58_first_value_fails`. -/
theorem C58_decreasing_partial (p : List ℝ) (hp : 0 < trapzSq p) (i j : ℕ) (hij : i ≤ j) (hj : j < p.length) :
    (energyDecay p).getD j ⊥ ≤ (energyDecay p).getD i ⊥ := by
  have e : ∀ i < p.length, (energyDecay p).getD i ⊥ = dB10 (((p.drop i).map (· ^ 2)).sum / trapzSq p) := by
    intro i hi; simp [energyDecay, List.getD_eq_getElem?_getD, hi]
  rw [e i (by omega), e j hj]
  exact dB10_mono (div_le_div_of_nonneg_right (tail_energy_mono p i j hij) hp.le)

example : 0 < trapzSq [1, 1] := by norm_num [trapzSq]

/-- Trapezoidal and plain sum differ by half of the first and last square. -/
theorem trapz_eq (a : ℝ) (l : List ℝ) : trapzSq (a :: l) + (a ^ 2 + ((a :: l).getLast (by simp)) ^ 2) / 2 = ((a :: l).map (· ^ 2)).sum := by
  induction l generalizing a with
  | nil => simp [trapzSq]
  | cons b l ih =>
      have := ih b
      simp only [trapzSq, List.tail_cons, List.map_cons, List.sum_cons, List.zipWith_cons_cons] at this ⊢
      rw [List.getLast_cons (by simp)]
      cases l with
      | nil => simp at this ⊢; try ring
      | cons c l => simp only [List.zipWith_cons_cons, List.sum_cons, List.map_cons] at this ⊢; linarith

/-- **C58**: the first value is 0 dB exactly for responses that start and end with zero; in all other cases it is positive. -/
theorem C58_first_value (a : ℝ) (l : List ℝ) (hp : 0 < trapzSq (a :: l)) :
    ((energyDecay (a :: l)).getD 0 ⊥ = 0 ↔ a = 0 ∧ (a :: l).getLast (by simp) = 0) ∧ 0 ≤ (energyDecay (a :: l)).getD 0 ⊥ := by
  have e : (energyDecay (a :: l)).getD 0 ⊥ = dB10 (((a :: l).map (· ^ 2)).sum / trapzSq (a :: l)) := by
    simp [energyDecay, List.getD_eq_getElem?_getD]
  have ht := trapz_eq a l
  generalize hz : (a :: l).getLast (by simp) = z at *
  rw [e, ← ht, add_div, div_self hp.ne']
  have hnn : 0 ≤ (a ^ 2 + z ^ 2) / 2 / trapzSq (a :: l) := by positivity
  generalize hx : (a ^ 2 + z ^ 2) / 2 / trapzSq (a :: l) = x at *
  have hx0 : x = 0 ↔ a = 0 ∧ z = 0 := by
    rw [← hx, div_eq_zero_iff, or_iff_left hp.ne']
    constructor
    · intro h
      have h1 : a ^ 2 = 0 := by nlinarith [sq_nonneg a, sq_nonneg z]
      have h2 : z ^ 2 = 0 := by nlinarith [sq_nonneg a, sq_nonneg z]
      exact ⟨pow_eq_zero_iff (two_ne_zero) |>.1 h1, pow_eq_zero_iff (two_ne_zero) |>.1 h2⟩
    · rintro ⟨rfl, rfl⟩; norm_num
  rw [dB10, if_neg (by linarith), ← hx0]
  have hl0 : 0 ≤ logb 10 (1 + x) := logb_nonneg (by norm_num) (by linarith)
  refine ⟨?_, by exact_mod_cast (by linarith : (0 : ℝ) ≤ 10 * logb 10 (1 + x))⟩
  constructor
  · intro h
    have h' : 10 * logb 10 (1 + x) = 0 := by exact_mod_cast h
    by_contra hne
    have : 0 < logb 10 (1 + x) := logb_pos (by norm_num) (by have := lt_of_le_of_ne hnn (Ne.symm hne); linarith)
    linarith
  · intro h; rw [h]; simp

/-- **C58**: for responses that start and end with zero the curve is the remaining energy relative to the whole, in decibels: `10^(value/10)` times the whole energy is
the energy from sample `i` on, as long as any is left; afterwards it is `-inf`. -/
theorem C58_remaining (l : List ℝ) (hl : ∃ x ∈ l, x ≠ 0) (p : List ℝ) (hp : p = 0 :: (l ++ [0])) (i : ℕ) (hi : i < p.length) :
    ((∀ x ∈ p.drop i, x = 0) → (energyDecay p).getD i ⊥ = ⊥) ∧
    ((∃ x ∈ p.drop i, x ≠ 0) → ∃ v : ℝ, (energyDecay p).getD i ⊥ = (v : WithBot ℝ) ∧
      (10 : ℝ) ^ (v / 10) * (p.map (· ^ 2)).sum = ((p.drop i).map (· ^ 2)).sum) := by
  have e : (energyDecay p).getD i ⊥ = dB10 (((p.drop i).map (· ^ 2)).sum / trapzSq p) := by
    simp [energyDecay, List.getD_eq_getElem?_getD, hi]
  have ht : trapzSq p = (p.map (· ^ 2)).sum := by
    have := trapz_eq 0 (l ++ [0])
    have hz : (0 :: (l ++ [0] : List ℝ)).getLast (by simp) = 0 := by simp
    rw [hz] at this
    rw [hp]
    linarith
  have pos : ∀ q : List ℝ, (∃ x ∈ q, x ≠ 0) → 0 < (q.map (· ^ 2)).sum := by
    rintro q ⟨x, hx, h0⟩
    have hle : x ^ 2 ≤ (q.map (· ^ 2)).sum := List.single_le_sum (by simp only [List.mem_map]; rintro _ ⟨y, _, rfl⟩; positivity) _ (List.mem_map.2 ⟨x, hx, rfl⟩)
    have : 0 < x ^ 2 := by positivity
    linarith
  have hE : 0 < (p.map (· ^ 2)).sum := by
    obtain ⟨x, hx, h0⟩ := hl
    exact pos p ⟨x, by rw [hp]; simp [hx], h0⟩
  rw [e, ht, dB10]
  refine ⟨fun h => ?_, fun h => ?_⟩
  · rw [if_pos]
    have : ((p.drop i).map (· ^ 2)).sum = 0 := by
      apply List.sum_eq_zero
      simp only [List.mem_map]
      rintro _ ⟨y, hy, rfl⟩
      rw [h y hy]; norm_num
    rw [this, zero_div]
  · have hr : 0 < ((p.drop i).map (· ^ 2)).sum / (p.map (· ^ 2)).sum := div_pos (pos _ h) hE
    rw [if_neg (not_le.2 hr)]
    refine ⟨_, rfl, ?_⟩
    rw [mul_div_cancel_left₀ _ (by norm_num : (10 : ℝ) ≠ 0), Real.rpow_logb (by norm_num) (by norm_num) hr, div_mul_cancel₀ _ hE.ne']

/-- `C58_remaining`: energies 9 and 16; after the first of them 16/25 is left. -/
example : ∃ v : ℝ, (energyDecay [0, 3, 4, 0]).getD 2 ⊥ = (v : WithBot ℝ) ∧ (10 : ℝ) ^ (v / 10) * 25 = 16 := by
  obtain ⟨v, h, hv⟩ := (C58_remaining [3, 4] ⟨3, by simp, by norm_num⟩ _ rfl 2 (by simp)).2 ⟨4, by simp, by norm_num⟩
  refine ⟨v, h, ?_⟩
  norm_num at hv
  linarith

/-- `C58_first_value`: a decay that starts and ends with a sample different from zero starts above 0 dB. -/
example : (energyDecay [2, 1, 1]).getD 0 ⊥ ≠ 0 := by
  rw [Ne, (C58_first_value 2 [1, 1] (by norm_num [trapzSq])).1]
  norm_num

/-- **C58** is false: the response `[1, 1]` starts at `10·log10(2)` dB. -/
theorem C58_first_value_fails : (energyDecay [1, 1]).getD 0 ⊥ ≠ 0 := by
  intro h
  have := (C58_first_value 1 [1] (by norm_num [trapzSq])).1.1 h
  norm_num at this

/-! ### C60 -/

theorem fade_ok (s : List ℝ) (m : ℕ) (h0 : 0 < m) (h1 : m ≤ s.length) : ∃ t, fade s m = .ok t ∧ t.length = s.length ∧ ∀ i, |t.getD i 0| ≤ |s.getD i 0| := by
  unfold fade
  rw [if_neg (by omega)]
  refine ⟨_, rfl, by simp, ?_⟩
  intro i
  rcases Nat.lt_or_ge i s.length with hi | hi
  · have b : ∀ (P : Prop) [Decidable P] (x : ℝ), 0 ≤ x → x ≤ 1 → |if P then x else 1| ≤ 1 := by
      intro P _ x hx0 hx1; split
      · rw [abs_of_nonneg hx0]; exact hx1
      · norm_num
    simp only [List.getD_eq_getElem?_getD, List.getElem?_mapIdx, List.getElem?_eq_getElem hi, Option.map_some, Option.getD_some]
    rw [abs_mul, abs_mul]
    have b1 := b (i < m) (sin (quarter m i) ^ 2) (sq_nonneg _) (sin_sq_le_one _)
    have b2 := b (s.length - m ≤ i) (cos (quarter m (i - (s.length - m))) ^ 2) (sq_nonneg _) (cos_sq_le_one _)
    calc _ ≤ |s[i]| * 1 * 1 := by gcongr
      _ = _ := by ring
  · simp [List.getD_eq_getElem?_getD, List.getElem?_eq_none hi, hi]

theorem mapM_eq_map {α β : Type} (F : α → Py β) (f : α → β) (l : List α) (h : ∀ x ∈ l, F x = .ok (f x)) : l.mapM F = .ok (l.map f) := by
  induction l with
  | nil => rfl
  | cons x l ih =>
      rw [List.mapM_cons, h x (by simp), ih fun y hy => h y (by simp [hy])]
      rfl

/-- **C60** (partial): with a pause as long as the noise, `reps` repetitions of `int(fs*t_noise)` faded noise samples followed by `int(fs*t_pause)` zeros — for white noise,
and for pink noise of an even number of samples.  The fades never raise a sample's magnitude.
Missing: other pauses (`C60_pause_fails`), pink noise of odd length (`C60_pink_odd_fails`), no fade (`C60_no_fade_fails`). -/
theorem C60_train_partial (pinken : List ℝ → List ℝ) (hpin : ∀ l, (pinken l).length = 2 * (l.length / 2)) (white : ℕ → List ℝ)
    (tNoise tPause fs tFade : ℝ) (reps : ℕ) (pink : Bool)
    (hw : ∀ r, (white r).length = (pyInt (fs * tNoise)).toNat) (hf0 : 0 < (pyInt (fs * tFade)).toNat)
    (hf1 : (pyInt (fs * tFade)).toNat ≤ (pyInt (fs * tNoise)).toNat) (hpause : (pyInt (fs * tPause)).toNat = (pyInt (fs * tNoise)).toNat)
    (heven : pink = true → (pyInt (fs * tNoise)).toNat % 2 = 0) :
    ∃ noise : ℕ → List ℝ,
      (∀ r, (noise r).length = (pyInt (fs * tNoise)).toNat ∧ ∀ i, |(noise r).getD i 0| ≤ |(if pink then pinken (white r) else white r).getD i 0|) ∧
      pulsedNoise pinken white tNoise tPause fs reps tFade pink false =
        .ok ((List.range reps).flatMap fun r => noise r ++ List.replicate (pyInt (fs * tPause)).toNat 0) := by
  have hlen : ∀ r, (if pink then pinken (white r) else white r).length = (pyInt (fs * tNoise)).toNat := by
    intro r
    cases pink with
    | false => simpa using hw r
    | true => simp only [if_true]; rw [hpin, hw]; have := heven rfl; omega
  choose noise hn1 hn2 hn3 using fun r => fade_ok (if pink then pinken (white r) else white r) _ hf0 (by rw [hlen r]; exact hf1)
  refine ⟨noise, fun r => ⟨(hn2 r).trans (hlen r), hn3 r⟩, ?_⟩
  unfold pulsedNoise
  rw [mapM_eq_map _ noise _ (fun r _ => ?_)]
  · change Except.ok _ = _
    rw [List.flatMap_map, hpause]
  · have := hn1 r
    unfold pulse
    cases pink with
    | false => simpa using this
    | true =>
        simp only [if_true] at this ⊢
        rw [if_neg (by rw [hw]; have := heven rfl; omega)]
        exact this

/-- Four samples of noise and pause, fades of one sample. -/
example : (pyInt ((4 : ℝ) * 1)).toNat = 4 ∧ (pyInt ((4 : ℝ) * (1 / 4))).toNat = 1 := ⟨by norm_num [pyInt]; rfl, by norm_num [pyInt]⟩

/-- **C60** is false: the pause has the length of the noise; whenever `t_pause` asks for another length the train has the wrong length. -/
theorem C60_pause_fails (pinken : List ℝ → List ℝ) (white : ℕ → List ℝ) (tNoise tPause fs tFade : ℝ) (reps : ℕ) (hreps : 0 < reps)
    (hw : ∀ r, (white r).length = (pyInt (fs * tNoise)).toNat) (hf0 : 0 < (pyInt (fs * tFade)).toNat)
    (hf1 : (pyInt (fs * tFade)).toNat ≤ (pyInt (fs * tNoise)).toNat) (hpause : (pyInt (fs * tPause)).toNat ≠ (pyInt (fs * tNoise)).toNat) :
    ∃ out, pulsedNoise pinken white tNoise tPause fs reps tFade false false = .ok out ∧
      out.length ≠ reps * ((pyInt (fs * tNoise)).toNat + (pyInt (fs * tPause)).toNat) := by
  choose noise hn1 hn2 hn3 using fun r => fade_ok (white r) _ hf0 (by rw [hw r]; exact hf1)
  refine ⟨(List.range reps).flatMap fun r => noise r ++ List.replicate (pyInt (fs * tNoise)).toNat 0, ?_, ?_⟩
  · unfold pulsedNoise
    rw [mapM_eq_map _ noise _ (fun r _ => by unfold pulse; simpa using hn1 r)]
    change Except.ok _ = _
    rw [List.flatMap_map]
  · have : ∀ r, (noise r ++ List.replicate (pyInt (fs * tNoise)).toNat (0 : ℝ)).length = 2 * (pyInt (fs * tNoise)).toNat := by
      intro r; rw [List.length_append, hn2, hw, List.length_replicate]; ring
    simp only [List.length_flatMap, this, List.map_const', List.length_range, List.sum_replicate, smul_eq_mul]
    intro h
    have := Nat.eq_of_mul_eq_mul_left hreps h
    omega

/-- A pause of two samples instead of four. -/
example : (pyInt ((4 : ℝ) * (1 / 2))).toNat ≠ (pyInt ((4 : ℝ) * 1)).toNat := by
  have h1 : pyInt ((4 : ℝ) * (1 / 2)) = 2 := by norm_num [pyInt]
  have h2 : pyInt ((4 : ℝ) * 1) = 4 := by norm_num [pyInt]
  rw [h1, h2]; decide

/-- **C60** is false for pink noise of odd length: the pulse loses its last sample (the inverse transform returns an even number of samples). -/
theorem C60_pink_odd_fails (pinken : List ℝ → List ℝ) (hpin : ∀ l, (pinken l).length = 2 * (l.length / 2)) (white : List ℝ) (m : ℕ)
    (hodd : white.length % 2 = 1) (h1 : 1 < white.length) (hm : 0 < m) (hm1 : m < white.length) :
    ∃ s, pulse pinken true white m = .ok s ∧ s.length = white.length - 1 := by
  obtain ⟨t, ht1, ht2, -⟩ := fade_ok (pinken white) m hm (by rw [hpin]; omega)
  refine ⟨t, ?_, by rw [ht2, hpin]; omega⟩
  rw [pulse, if_pos rfl, if_neg (by omega)]
  exact ht1

example : ∃ pinken : List ℝ → List ℝ, ∀ l, (pinken l).length = 2 * (l.length / 2) := ⟨fun l => List.replicate (2 * (l.length / 2)) 0, fun l => by simp⟩

/-- **C60** is false without fades: a fade of less than one sample raises `ValueError`, since `s[-0:]` is the whole pulse. -/
theorem C60_no_fade_fails (pinken : List ℝ → List ℝ) (white : List ℝ) (h : white ≠ []) : pulse pinken false white 0 = .error .valueError := by
  rw [pulse, if_neg (by simp), fade, if_pos (Or.inr ⟨rfl, h⟩)]

/-- **C60** Pink noise of one sample (or none) raises: the inverse FFT of one bin has no samples. With two samples and more it depends on the fades alone. -/
theorem C60_pink_short_fails (pinken : List ℝ → List ℝ) (hpin : ∀ l, (pinken l).length = 2 * (l.length / 2)) (white : List ℝ) (m : ℕ) :
    pulse pinken true white m = .error .valueError ↔ white.length < 2 ∨ m = 0 ∨ 2 * (white.length / 2) < m := by
  rw [pulse, if_pos rfl]
  by_cases h : white.length < 2
  · rw [if_pos h]; simp [h]
  · have hne : pinken white ≠ [] := fun e => by have := hpin white; rw [e, List.length_nil] at this; omega
    rw [if_neg h, fade, hpin]
    by_cases hc : 2 * (white.length / 2) < m ∨ m = 0 ∧ pinken white ≠ []
    · rw [if_pos (by tauto)]; tauto
    · rw [if_neg (by tauto)]
      simp only [reduceCtorEq, false_iff]
      tauto

/-- **C60** The fades in detail: with a fade of `m` samples, the first sample of a pulse is silent, and the last one if `m > 1`; the samples at least `m` away from
both ends are the noise itself; in between, in and out, they are weighted by squared sines and cosines of angles growing linearly from 0 to a quarter turn. -/
theorem C60_fade (pinken : List ℝ → List ℝ) (white : List ℝ) (m : ℕ) (h0 : 0 < m) (h1 : 2 * m ≤ white.length) :
    ∃ t, pulse pinken false white m = .ok t ∧ t.length = white.length ∧ t.getD 0 0 = 0 ∧ (1 < m → t.getD (white.length - 1) 0 = 0) ∧
      (m = 1 → t.getD (white.length - 1) 0 = white.getD (white.length - 1) 0) ∧
      (∀ i, m ≤ i → i < white.length - m → t.getD i 0 = white.getD i 0) ∧
      (∀ i < m, 1 < m → t.getD i 0 = white.getD i 0 * sin (π / 2 * (i / (m - 1))) ^ 2 ∧
        t.getD (white.length - m + i) 0 = white.getD (white.length - m + i) 0 * cos (π / 2 * (i / (m - 1))) ^ 2) := by
  refine ⟨_, by rw [pulse, if_neg (by simp), fade, if_neg (by omega)], by simp, ?_⟩
  have key : ∀ i < white.length, (white.mapIdx fun i x =>
      x * (if i < m then sin (quarter m i) ^ 2 else 1) * (if white.length - m ≤ i then cos (quarter m (i - (white.length - m))) ^ 2 else 1)).getD i 0
        = white.getD i 0 * (if i < m then sin (quarter m i) ^ 2 else 1) * (if white.length - m ≤ i then cos (quarter m (i - (white.length - m))) ^ 2 else 1) := by
    intro i hi
    simp only [List.getD_eq_getElem?_getD, List.getElem?_mapIdx, List.getElem?_eq_getElem hi, Option.map_some, Option.getD_some]
  have q : ∀ i, 1 < m → quarter m i = π / 2 * (i / (m - 1)) := by
    intro i hm
    unfold quarter
    rw [if_neg (by omega)]; ring
  have fst : ∀ i < m, 1 < m → (white.getD i 0 * (if i < m then sin (quarter m i) ^ 2 else 1)
      * (if white.length - m ≤ i then cos (quarter m (i - (white.length - m))) ^ 2 else 1)) = white.getD i 0 * sin (π / 2 * (i / (m - 1))) ^ 2 := by
    intro i hi hm
    rw [if_pos hi, if_neg (by omega), mul_one, q i hm]
  have lst : ∀ i < m, 1 < m → (white.getD (white.length - m + i) 0 * (if white.length - m + i < m then sin (quarter m (white.length - m + i)) ^ 2 else 1)
      * (if white.length - m ≤ white.length - m + i then cos (quarter m (white.length - m + i - (white.length - m))) ^ 2 else 1))
        = white.getD (white.length - m + i) 0 * cos (π / 2 * (i / (m - 1))) ^ 2 := by
    intro i hi hm
    rw [if_neg (by omega), if_pos (by omega), mul_one, Nat.add_sub_cancel_left, q i hm]
  refine ⟨?_, fun hm => ?_, fun hm => ?_, fun i h2 h3 => ?_, fun i hi hm => ⟨?_, ?_⟩⟩
  · rw [key 0 (by omega), if_pos h0]
    unfold quarter
    split_ifs <;> simp
  · rw [key _ (by omega)]
    have := lst (m - 1) (by omega) hm
    rw [show white.length - m + (m - 1) = white.length - 1 by omega] at this
    rw [this]
    have hm' : (m : ℝ) - 1 ≠ 0 := by
      have : (1 : ℝ) < m := by exact_mod_cast hm
      linarith
    rw [Nat.cast_sub h0, Nat.cast_one, div_self hm', mul_one, cos_pi_div_two]
    simp
  · rw [key _ (by omega), if_neg (by omega), if_pos (by omega)]
    simp [quarter, hm]
  · rw [key i (by omega), if_neg (by omega), if_neg (by omega)]; ring
  · rw [key i (by omega), fst i hi hm]
  · rw [key _ (by omega), lst i hi hm]

/-- A pulse of seven samples with a fade of three. -/
example : ∃ t, pulse id false [1, 2, 3, 4, 5, 6, 7] 3 = .ok t ∧ t.getD 0 0 = 0 ∧ t.getD 3 0 = 4 ∧ t.getD 6 0 = 0 := by
  obtain ⟨t, h1, -, h2, h3, -, h4, -⟩ := C60_fade id [1, 2, 3, 4, 5, 6, 7] 3 (by norm_num) (by norm_num)
  exact ⟨t, h1, h2, by simpa using h4 3 (by norm_num) (by norm_num), by simpa using h3 (by norm_num)⟩

example : pulse id false [1, 2, 3] 0 = .error .valueError := C60_no_fade_fails id [1, 2, 3] (by simp)

/-- **C60**: a normalised train has magnitudes up to one, attained. -/
theorem C60_normalized (pinken : List ℝ → List ℝ) (white : ℕ → List ℝ) (tNoise tPause fs tFade : ℝ) (reps : ℕ) (pink : Bool) (out s : List ℝ)
    (hs : pulsedNoise pinken white tNoise tPause fs reps tFade pink false = .ok s) (hne : ∃ x ∈ s, x ≠ 0)
    (h : pulsedNoise pinken white tNoise tPause fs reps tFade pink true = .ok out) :
    out.length = s.length ∧ (∀ x ∈ out, |x| ≤ 1) ∧ ∃ x ∈ out, |x| = 1 := by
  unfold pulsedNoise at hs h
  rcases hq : (List.range reps).mapM (fun r => pulse pinken pink (white r) (pyInt (fs * tFade)).toNat) with e | ps
  · rw [hq] at hs; cases hs
  · rw [hq] at hs h
    simp only [Except.bind, if_true, Bool.false_eq_true, if_false] at hs h
    obtain ⟨s', hs'⟩ : ∃ s', s' = ps.flatMap fun p => p ++ List.replicate (pyInt (fs * tNoise)).toNat 0 := ⟨_, rfl⟩
    rw [← hs'] at hs h
    cases hs
    split at h
    · cases h
    · rename_i v vs hv
      cases h
      have hg := foldl_max_greatest v vs
      rw [← hv] at hg
      obtain ⟨x0, hx0, hx0'⟩ := hne
      have hpos : 0 < vs.foldl max v := lt_of_lt_of_le (abs_pos.2 hx0') (hg.2 (List.mem_map.2 ⟨x0, hx0, rfl⟩))
      refine ⟨by simp, ?_, ?_⟩
      · intro x hx
        obtain ⟨y, hy, rfl⟩ := List.mem_map.1 hx
        rw [abs_div, abs_of_pos hpos, div_le_one hpos]
        exact hg.2 (List.mem_map.2 ⟨y, hy, rfl⟩)
      · obtain ⟨y, hy, hy'⟩ := List.mem_map.1 hg.1
        refine ⟨y / vs.foldl max v, List.mem_map.2 ⟨y, hy, rfl⟩, ?_⟩
        rw [abs_div, abs_of_pos hpos, hy', div_self hpos.ne']

/-- `C60_normalized`: one pulse of three samples with fades of one sample, unscaled and normalised. -/
example : ∃ s out, pulsedNoise id (fun _ => [1, 2, 3]) 3 3 1 1 1 false false = .ok s ∧ (∃ x ∈ s, x ≠ 0) ∧
    pulsedNoise id (fun _ => [1, 2, 3]) 3 3 1 1 1 false true = .ok out ∧ ∀ x ∈ out, |x| ≤ 1 := by
  have h3 : pyInt ((1 : ℝ) * 3) = 3 := by norm_num [pyInt]
  have h1 : pyInt ((1 : ℝ) * 1) = 1 := by norm_num [pyInt]
  have hs : pulsedNoise id (fun _ => [1, 2, 3]) 3 3 1 1 1 false false = .ok [0, 2, 3, 0, 0, 0] := by
    simp only [pulsedNoise, h3, h1]
    simp [pulse, fade, quarter, List.range_succ, Except.bind, pure, Except.pure, bind]
  have ho : pulsedNoise id (fun _ => [1, 2, 3]) 3 3 1 1 1 false true = .ok [0, 2 / 3, 1, 0, 0, 0] := by
    simp only [pulsedNoise, h3, h1]
    simp [pulse, fade, quarter, List.range_succ, Except.bind, pure, Except.pure, bind]
    rw [max_eq_right (by norm_num)]
    norm_num
  have hne : ∃ x ∈ [0, 2, 3, 0, 0, (0 : ℝ)], x ≠ 0 := ⟨2, by simp, by norm_num⟩
  exact ⟨_, _, hs, hne, ho, (C60_normalized id _ 3 3 1 1 1 false _ _ hs hne ho).2.1⟩

/-! ### C61 -/

theorem poolFill_mem {α : Type} (task : ℕ → α) (order : List ℕ) (s : ℕ → Option α) (j : ℕ) :
    poolFill task order s j = if j ∈ order then some (task j) else s j := by
  unfold poolFill
  induction order generalizing s with
  | nil => simp
  | cons i l ih =>
      rw [List.foldl_cons, ih]
      by_cases h1 : j ∈ l
      · simp [h1]
      · by_cases h2 : j = i
        · subst h2; simp [h1]
        · simp [h1, h2]

theorem starmap_eq (rs : Resampler) (rows : List (List ℝ)) (fs fsNew : ℝ) (order : List ℕ) (ho : order.Perm (List.range rows.length)) :
    starmapRows rs rows fs fsNew order = rows.map fun r => some (rs.run fs fsNew r) := by
  unfold starmapRows
  apply List.ext_getElem
  · simp
  · intro i h1 h2
    have hi : i < rows.length := by simpa using h2
    have hm : i ∈ order := ho.mem_iff.2 (List.mem_range.2 hi)
    simp only [List.getElem_map, List.getElem_range]
    rw [poolFill_mem, if_pos hm, List.getD_eq_getElem?_getD, List.getElem?_eq_getElem hi]
    rfl

/-- **C61**: for every number of jobs `≥ 1` (or `None`, the number of processors) and every order in which the pool completes its tasks, row `g` of either ear is the
resampled row `g`, and the returned sampling rate is the target's. -/
theorem C61_jobs (rs : Resampler) (left right : List (List ℝ)) (cols : ℕ) (fs fsNew : ℝ) (jobs : Option ℤ) (cpus : ℕ) (orderL orderR : List ℕ)
    (hj : 1 ≤ jobs.getD cpus) (hl : orderL.Perm (List.range left.length)) (hr : orderR.Perm (List.range right.length)) :
    resampleHrirs rs left right cols fs fsNew jobs cpus orderL orderR =
      (left.map fun r => some (rs.run fs fsNew r), right.map fun r => some (rs.run fs fsNew r), fsNew) := by
  unfold resampleHrirs
  by_cases h1 : jobs.getD cpus = 1
  · simp only [h1, if_true]
  · have h2 : jobs.getD cpus > 1 := by omega
    simp only [h1, h2, if_true, if_false]
    rw [starmap_eq rs left fs fsNew orderL hl, starmap_eq rs right fs fsNew orderR hr]

example : (1 : ℤ) ≤ (none : Option ℤ).getD (4 : ℕ) ∧ [2, 0, 1].Perm (List.range 3) := ⟨by norm_num, by decide⟩

/-- **C61**: zero or negative job counts silently return zeros of one row per position for both ears. -/
theorem C61_no_jobs (rs : Resampler) (left right : List (List ℝ)) (cols : ℕ) (fs fsNew : ℝ) (j : ℤ) (cpus : ℕ) (orderL orderR : List ℕ) (hj : j < 1) :
    resampleHrirs rs left right cols fs fsNew (some j) cpus orderL orderR =
      (List.replicate left.length (some (List.replicate (pyInt (cols * fsNew / fs)).toNat 0)),
       List.replicate left.length (some (List.replicate (pyInt (cols * fsNew / fs)).toNat 0)), fsNew) := by
  unfold resampleHrirs
  have h1 : ¬ j = 1 := by omega
  have h2 : ¬ j > 1 := by omega
  simp only [Option.getD_some, h1, h2, if_false]

example : (0 : ℤ) < 1 ∧ (-3 : ℤ) < 1 := by norm_num

/-- `C60_pink_short_fails`: a routine which drops the last sample of odd lengths. -/
example : pulse (fun l => List.replicate (2 * (l.length / 2)) 1) true [1, 2, 3] 3 = .error .valueError :=
  (C60_pink_short_fails _ (fun l => by simp) [1, 2, 3] 3).2 (.inr (.inr (by norm_num)))

end Verif.Props
