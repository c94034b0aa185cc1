import Mathlib.Tactic
import Verif.Props.Hrirs
import Verif.Props.Binaural

/-! C46: loudspeaker signals and their binaural rendering. -/

namespace Verif.Decoder

open Verif.Utils Verif.Sig Real

/-- **C46** `loudspeaker_signals(gains, sig)` is the array of `sig[s] * gains[s, l]`, one row per loudspeaker and one column per sample; without a signal it is the gains. -/
theorem C46_loudspeaker_signals {L S : ℕ} (h : Hull L) (gains : Matrix (Fin S) (Fin L) ℝ) (sig : Fin S → ℝ) :
    loudspeakerSignals h gains (some (List.ofFn sig)) = .ok (List.ofFn fun l => List.ofFn fun s => sig s * gains s l) ∧
    loudspeakerSignals h gains none = .ok (List.ofFn fun l => List.ofFn fun s => gains s l) := by
  constructor
  · rw [loudspeakerSignals]
    simp only [Option.getD_some, List.length_ofFn, ne_eq, not_true_eq_false, if_false, if_true]
    rw [List.ofFn_eq_map (f := fun l => List.ofFn fun s => sig s * gains s l)]
    congr 1
    refine List.map_congr_left fun l _ => ?_
    rw [List.ofFn_eq_map (f := fun s => sig s * gains s l)]
    refine List.map_congr_left fun s _ => ?_
    rw [getD_ofFn, dif_pos s.2]
  · rw [loudspeakerSignals]
    simp only [Option.getD_none, List.length_replicate, ne_eq, not_true_eq_false, if_false, if_true]
    rw [List.ofFn_eq_map]
    congr 1
    refine List.map_congr_left fun l _ => ?_
    rw [List.ofFn_eq_map (f := fun s => gains s l)]
    refine List.map_congr_left fun s _ => ?_
    rw [List.getD_eq_getElem?_getD, List.getElem?_replicate, if_pos s.2]
    simp

/-- **C46** Gains for a wrong number of loudspeakers are rejected. -/
theorem C46_reject {L S R : ℕ} (h : Hull L) (gains : Matrix (Fin S) (Fin R) ℝ) (sig : Option (List ℝ)) (hR : R ≠ L) :
    loudspeakerSignals h gains sig = .error .assertionError := by
  rw [loudspeakerSignals]; simp only [ne_eq, hR, not_false_eq_true, if_true]

/-- **C46** A signal of another length than the gains have rows: one row of gains is used for all samples, one sample for all rows of gains, anything else is a `ValueError`. -/
theorem C46_broadcast {L S : ℕ} (h : Hull L) (sig : List ℝ) (x : ℝ) (g : Fin L → ℝ) (gains : Matrix (Fin S) (Fin L) ℝ) :
    loudspeakerSignals h (fun _ : Fin 1 => g) (some sig) = .ok (List.ofFn fun l => sig.map fun y => y * g l) ∧
    loudspeakerSignals h gains (some [x]) = .ok (List.ofFn fun l => List.ofFn fun s => x * gains s l) ∧
    (sig.length ≠ S → S ≠ 1 → sig.length ≠ 1 → loudspeakerSignals h gains (some sig) = .error .valueError) := by
  have h1 : List.finRange 1 = [0] := rfl
  refine ⟨?_, ?_, ?_⟩
  · unfold loudspeakerSignals
    simp only [Option.getD_some, ne_eq, not_true_eq_false, if_false, if_true]
    rw [List.ofFn_eq_map]
    split
    · rename_i h1
      obtain ⟨y, rfl⟩ := List.length_eq_one_iff.1 h1
      simp
    · simp
  · rw [loudspeakerSignals]
    simp only [Option.getD_some, ne_eq, not_true_eq_false, if_false, if_true, List.length_singleton]
    rw [List.ofFn_eq_map]
    by_cases hS : 1 = S
    · subst hS
      simp [h1]
    · rw [if_neg hS, if_neg (fun q => hS q.symm)]
      congr 1
      refine List.map_congr_left fun l _ => ?_
      rw [List.ofFn_eq_map]
      simp
  · intro h1 h2 h3
    rw [loudspeakerSignals]
    simp [h1, h2, h3]

/-- `C46_broadcast`: two samples for three rows of gains. -/
example (h : Hull 2) (gains : Matrix (Fin 3) (Fin 2) ℝ) : loudspeakerSignals h gains (some [1, 2]) = .error .valueError :=
  (C46_broadcast h [1, 2] 0 0 gains).2.2 (by simp) (by simp) (by simp)

/-- A hull of two loudspeakers, in front at distance 2 and left at distance 1 (only what rendering uses). -/
def pairHull : Hull 2 where
  points := ![![2, 0, 0], ![0, 1, 0]]
  listener := ![0, 0, 0]
  d := ![2, 1]
  a := 1
  simplices := []
  centroids := []
  faceAreas := []
  faceNormals := []
  barycenter := ![1, 0, 0]
  encloses := []
  valid := []
  invBase := none
  charOrder := none

example : loudspeakerSignals pairHull !![1, 2; 3, 4; 5, 6] (some [1, 0, 2]) = .ok [[1, 0, 10], [2, 0, 12]] := by
  have := (C46_loudspeaker_signals pairHull !![1, 2; 3, 4; 5, 6] ![1, 0, 2]).1
  simp only [List.ofFn_succ, List.ofFn_zero] at this
  norm_num [Fin.succ, Matrix.cons_val_two, Matrix.tail_cons] at this
  convert this using 3 <;> norm_num [Matrix.vecHead, Matrix.vecTail]

example : loudspeakerSignals pairHull (1 : Matrix (Fin 3) (Fin 3) ℝ) none = .error .assertionError := C46_reject _ _ _ (by norm_num)

/-! #### binauralize -/

theorem addInto_ok {acc x : List ℝ} (h : x.length = acc.length) : addInto acc x = .ok (List.zipWith (· + ·) acc x) := by
  unfold addInto; rw [if_pos h]

theorem getD_zipWith_add {x y : List ℝ} (h : x.length = y.length) (n : ℕ) : (List.zipWith (· + ·) x y).getD n 0 = x.getD n 0 + y.getD n 0 := by
  rcases lt_or_ge n x.length with hn | hn
  · simp only [List.getD_eq_getElem?_getD, List.getElem?_zipWith, List.getElem?_eq_getElem hn, List.getElem?_eq_getElem (h ▸ hn)]
    simp
  · rw [getD_out hn, getD_out (x := y) (by omega), getD_out (x := List.zipWith _ x y) (by rw [List.length_zipWith]; omega), add_zero]

/-- Accumulating two lists of signals. -/
theorem foldlM_add {α : Type} (N : ℕ) (F : List ℝ × List ℝ → α → Py (List ℝ × List ℝ)) (A B : α → ℕ → ℝ) (l : List α)
    (hF : ∀ acc a, acc.1.length = N → acc.2.length = N → a ∈ l → ∃ p, F acc a = .ok p ∧ p.1.length = N ∧ p.2.length = N ∧
      (∀ n < N, p.1.getD n 0 = acc.1.getD n 0 + A a n) ∧ ∀ n < N, p.2.getD n 0 = acc.2.getD n 0 + B a n)
    (acc : List ℝ × List ℝ) (h1 : acc.1.length = N) (h2 : acc.2.length = N) :
    ∃ p, l.foldlM F acc = .ok p ∧ p.1.length = N ∧ p.2.length = N ∧
      (∀ n < N, p.1.getD n 0 = acc.1.getD n 0 + (l.map fun a => A a n).sum) ∧ ∀ n < N, p.2.getD n 0 = acc.2.getD n 0 + (l.map fun a => B a n).sum := by
  induction l generalizing acc with
  | nil => exact ⟨acc, rfl, h1, h2, by simp, by simp⟩
  | cons a l ih =>
    obtain ⟨p, e1, e2, e3, e4, e5⟩ := hF acc a h1 h2 (by simp)
    obtain ⟨q, g1, g2, g3, g4, g5⟩ := ih (fun acc b k1 k2 hb => hF acc b k1 k2 (List.mem_cons_of_mem _ hb)) p e2 e3
    refine ⟨q, ?_, g2, g3, ?_, ?_⟩
    · rw [List.foldlM_cons, e1]; exact g1
    · intro n hn
      rw [g4 n hn, e4 n hn, List.map_cons, List.sum_cons, add_assoc]
    · intro n hn
      rw [g5 n hn, e5 n hn, List.map_cons, List.sum_cons, add_assoc]

/-- The signal of loudspeaker `l` at the listener: divided by the distance to the power `a`. -/
noncomputable def atEar {L S : ℕ} (h : Hull L) (ls : Matrix (Fin L) (Fin S) ℝ) (l : Fin L) (s : Fin S) : ℝ :=
  ls l s / norm3 (h.points l - h.listener) ^ h.a

theorem attenuated_eq {L S : ℕ} (h : Hull L) (ls : Matrix (Fin L) (Fin S) ℝ) (l : Fin L) : attenuated h ls l l.2 = List.ofFn (atEar h ls l) := by
  rw [attenuated]
  congr 1
  funext s
  simp only [atEar, cart2sph, norm3, dotProduct, Fin.sum_univ_three, ← pow_two]
  ring

theorem convAt_ofFn_getD {S : ℕ} (x : Fin S → ℝ) (r : List ℝ) (n : ℕ) :
    convAt (List.ofFn x) r n = ∑ s : Fin S, if (s : ℕ) ≤ n then x s * r.getD (n - s) 0 else 0 := by
  conv_lhs => rw [eq_ofFn r]
  rw [convAt_ofFn]
  refine Finset.sum_congr rfl fun s _ => ?_
  by_cases h1 : (s : ℕ) ≤ n
  · by_cases h2 : n - (s : ℕ) < r.length
    · simp [h1, h2]
    · simp only [h1, h2, and_false, dif_neg, not_false_eq_true, if_true]
      rw [getD_out (by omega), mul_zero]
  · simp [h1]

open Classical in
/-- `C46_binauralize` with the measurements chosen independently of the signals and their number of samples. -/
theorem binauralize_lengths {L : ℕ} (h : Hull L) (orientation : ℝ × ℝ) (hr : HRIRs) (hc : hr.Consistent) (hne : hr.azi ≠ [])
    (hT : 1 ≤ hr.numSamples) :
    ∃ idx : Fin L → ℕ,
      (∀ k, let v := h.points k - h.listener
        IsNearest hr.azi hr.zen ((cart2sph (v 0) (v 1) (v 2) false false).1 - orientation.1) ((cart2sph (v 0) (v 1) (v 2) false false).2.1 - orientation.2) (idx k)) ∧
      ∀ (S : ℕ) (_ : 1 ≤ S) (ls : Matrix (Fin L) (Fin S) ℝ), ∃ l r : List ℝ, binauralize h ls hr.fs orientation hr = .ok (l, r) ∧
      l.length = S + hr.numSamples - 1 ∧ r.length = S + hr.numSamples - 1 ∧ ∀ n < S + hr.numSamples - 1,
        l.getD n 0 = (∑ k, if ∃ s, |ls k s / norm3 (h.points k - h.listener) ^ h.a| > 10e-6 then
          ∑ s : Fin S, (if (s : ℕ) ≤ n then ls k s / norm3 (h.points k - h.listener) ^ h.a * (hr.left.rows.getD (idx k) []).getD (n - s) 0 else 0) else 0) ∧
        r.getD n 0 = (∑ k, if ∃ s, |ls k s / norm3 (h.points k - h.listener) ^ h.a| > 10e-6 then
          ∑ s : Fin S, (if (s : ℕ) ≤ n then ls k s / norm3 (h.points k - h.listener) ^ h.a * (hr.right.rows.getD (idx k) []).getD (n - s) 0 else 0) else 0) := by
  obtain ⟨c1, c2, c3, c4, c5, c6, c7, c8⟩ := hc
  have hg : hr.Grid := ⟨by rw [c1, c2], hne, by rw [c1, c3], by rw [c1, c4]⟩
  have hn := fun k : Fin L => C51_rows hr hg ((cart2sph ((h.points k - h.listener) 0) ((h.points k - h.listener) 1) ((h.points k - h.listener) 2) false false).1 - orientation.1)
    ((cart2sph ((h.points k - h.listener) 0) ((h.points k - h.listener) 1) ((h.points k - h.listener) 2) false false).2.1 - orientation.2)
  choose idx rl rr e1 e2 e3 e4 using hn
  refine ⟨idx, e2, fun S hS ls => ?_⟩
  set N := S + hr.numSamples - 1 with hN
  set A : Fin L → ℕ → ℝ := fun k n => if ∃ s, |atEar h ls k s| > 10e-6 then convAt (List.ofFn (atEar h ls k)) (rl k) n else 0 with hA
  set B : Fin L → ℕ → ℝ := fun k n => if ∃ s, |atEar h ls k s| > 10e-6 then convAt (List.ofFn (atEar h ls k)) (rr k) n else 0 with hB
  have hx : ∀ k, List.ofFn (atEar h ls k) ≠ [] := fun k h0 => by
    have := congrArg List.length h0; simp at this; omega
  have hlen : ∀ k, (rl k).length = hr.numSamples ∧ (rr k).length = hr.numSamples := fun k =>
    ⟨by rw [c5 _ (List.mem_of_getElem? (e3 k)), c7], by rw [c6 _ (List.mem_of_getElem? (e4 k)), c8]⟩
  obtain ⟨p, f1, f2, f3, f4, f5⟩ := foldlM_add N (fun acc l => binauralStep h hr orientation l (attenuated h ls l l.2) acc) A B (List.finRange L)
    (fun acc k a1 a2 _ => by
      rw [attenuated_eq]
      have hgate : (∃ v ∈ List.ofFn (atEar h ls k), |v| > 10e-6) ↔ ∃ s, |atEar h ls k s| > 10e-6 := by
        simp only [List.mem_ofFn]
        constructor
        · rintro ⟨v, ⟨s, rfl⟩, hv⟩; exact ⟨s, hv⟩
        · rintro ⟨s, hs⟩; exact ⟨_, ⟨s, rfl⟩, hs⟩
      by_cases hg : ∃ s, |atEar h ls k s| > 10e-6
      · have l1 : (convFull (List.ofFn (atEar h ls k)) (rl k)).length = acc.1.length := by rw [convFull_length, (hlen k).1, a1]; simp [hN]
        have l2 : (convFull (List.ofFn (atEar h ls k)) (rr k)).length = acc.2.length := by rw [convFull_length, (hlen k).2, a2]; simp [hN]
        have n1 : rl k ≠ [] := fun h0 => by have := (hlen k).1; rw [h0] at this; simp at this; omega
        have n2 : rr k ≠ [] := fun h0 => by have := (hlen k).2; rw [h0] at this; simp at this; omega
        refine ⟨(List.zipWith (· + ·) acc.1 (convFull (List.ofFn (atEar h ls k)) (rl k)), List.zipWith (· + ·) acc.2 (convFull (List.ofFn (atEar h ls k)) (rr k))), ?_, ?_, ?_, ?_, ?_⟩
        · rw [binauralStep, if_pos (hgate.2 hg)]
          simp only [e1 k, Except.bind, convolve, hx k, n1, n2, or_self, if_false, convKeep, addInto_ok l1, addInto_ok l2, Except.map]
        · simp [l1, a1]
        · simp [l2, a2]
        · intro n _
          rw [getD_zipWith_add l1.symm, convFull_getD, hA]
          simp only [hg, if_true]
        · intro n _
          rw [getD_zipWith_add l2.symm, convFull_getD, hB]
          simp only [hg, if_true]
      · refine ⟨acc, ?_, a1, a2, ?_, ?_⟩
        · rw [binauralStep, if_neg (fun q => hg (hgate.1 q))]
        · intro n _; simp only [hA, hg, if_false, add_zero]
        · intro n _; simp only [hB, hg, if_false, add_zero])
    (List.replicate N 0, List.replicate N 0) (by simp) (by simp)
  refine ⟨p.1, p.2, ?_, f2, f3, ?_⟩
  · rw [binauralize, if_neg (by simp), dif_pos rfl, c7, if_neg (by omega)]
    exact f1
  · have hz : ∀ n, (List.replicate N (0 : ℝ)).getD n 0 = 0 := by
      intro n
      rw [List.getD_eq_getElem?_getD, List.getElem?_replicate]
      split <;> rfl
    have hrow : ∀ k, hr.left.rows.getD (idx k) [] = rl k ∧ hr.right.rows.getD (idx k) [] = rr k := fun k =>
      ⟨by rw [List.getD_eq_getElem?_getD, e3 k]; rfl, by rw [List.getD_eq_getElem?_getD, e4 k]; rfl⟩
    intro n hn
    constructor
    · rw [f4 n hn, hz, zero_add, ← List.ofFn_eq_map, List.sum_ofFn]
      refine Finset.sum_congr rfl fun k _ => ?_
      simp only [hA, convAt_ofFn_getD, (hrow k).1]
      rfl
    · rw [f5 n hn, hz, zero_add, ← List.ofFn_eq_map, List.sum_ofFn]
      refine Finset.sum_congr rfl fun k _ => ?_
      simp only [hB, convAt_ofFn_getD, (hrow k).2]
      rfl

open Classical in
/-- `C46_binauralize` with the measurements chosen independently of the signals. -/
theorem binauralize_uniform {L S : ℕ} (h : Hull L) (orientation : ℝ × ℝ) (hr : HRIRs) (hc : hr.Consistent) (hne : hr.azi ≠ [])
    (hT : 1 ≤ hr.numSamples) (hS : 1 ≤ S) :
    ∃ idx : Fin L → ℕ,
      (∀ k, let v := h.points k - h.listener
        IsNearest hr.azi hr.zen ((cart2sph (v 0) (v 1) (v 2) false false).1 - orientation.1) ((cart2sph (v 0) (v 1) (v 2) false false).2.1 - orientation.2) (idx k)) ∧
      ∀ ls : Matrix (Fin L) (Fin S) ℝ, ∃ l r : List ℝ, binauralize h ls hr.fs orientation hr = .ok (l, r) ∧
      l.length = S + hr.numSamples - 1 ∧ r.length = S + hr.numSamples - 1 ∧ ∀ n < S + hr.numSamples - 1,
        l.getD n 0 = (∑ k, if ∃ s, |ls k s / norm3 (h.points k - h.listener) ^ h.a| > 10e-6 then
          ∑ s : Fin S, (if (s : ℕ) ≤ n then ls k s / norm3 (h.points k - h.listener) ^ h.a * (hr.left.rows.getD (idx k) []).getD (n - s) 0 else 0) else 0) ∧
        r.getD n 0 = (∑ k, if ∃ s, |ls k s / norm3 (h.points k - h.listener) ^ h.a| > 10e-6 then
          ∑ s : Fin S, (if (s : ℕ) ≤ n then ls k s / norm3 (h.points k - h.listener) ^ h.a * (hr.right.rows.getD (idx k) []).getD (n - s) 0 else 0) else 0) := by
  obtain ⟨idx, h1, h2⟩ := binauralize_lengths h orientation hr hc hne hT
  exact ⟨idx, h1, h2 S hS⟩

open Classical in
/-- **C46** `binauralize` returns `S + T - 1` samples per ear, the sum over the loudspeakers of the full convolution of the signal divided by `r**a` with the HRIR
nearest to the loudspeaker's direction relative to the orientation; loudspeakers whose attenuated signal never exceeds `10e-6` are left out. -/
theorem C46_binauralize {L S : ℕ} (h : Hull L) (ls : Matrix (Fin L) (Fin S) ℝ) (orientation : ℝ × ℝ) (hr : HRIRs) (hc : hr.Consistent) (hne : hr.azi ≠ [])
    (hT : 1 ≤ hr.numSamples) (hS : 1 ≤ S) :
    ∃ (idx : Fin L → ℕ) (l r : List ℝ), binauralize h ls hr.fs orientation hr = .ok (l, r) ∧
      l.length = S + hr.numSamples - 1 ∧ r.length = S + hr.numSamples - 1 ∧
      (∀ k, let v := h.points k - h.listener
        IsNearest hr.azi hr.zen ((cart2sph (v 0) (v 1) (v 2) false false).1 - orientation.1) ((cart2sph (v 0) (v 1) (v 2) false false).2.1 - orientation.2) (idx k)) ∧
      ∀ n < S + hr.numSamples - 1,
        l.getD n 0 = (∑ k, if ∃ s, |ls k s / norm3 (h.points k - h.listener) ^ h.a| > 10e-6 then
          ∑ s : Fin S, (if (s : ℕ) ≤ n then ls k s / norm3 (h.points k - h.listener) ^ h.a * (hr.left.rows.getD (idx k) []).getD (n - s) 0 else 0) else 0) ∧
        r.getD n 0 = (∑ k, if ∃ s, |ls k s / norm3 (h.points k - h.listener) ^ h.a| > 10e-6 then
          ∑ s : Fin S, (if (s : ℕ) ≤ n then ls k s / norm3 (h.points k - h.listener) ^ h.a * (hr.right.rows.getD (idx k) []).getD (n - s) 0 else 0) else 0) := by
  obtain ⟨idx, h1, h2⟩ := binauralize_uniform h orientation hr hc hne hT hS
  obtain ⟨l, r, e1, e2, e3, e4⟩ := h2 ls
  exact ⟨idx, l, r, e1, e2, e3, h1, e4⟩

/-- The two-loudspeaker hull and the two-direction HRIR set satisfy the hypotheses. -/
example : ∃ l r : List ℝ, binauralize pairHull !![1, 0, 2; 0, 3, 0] 48000 (0.1, 0) twoHrirs = .ok (l, r) ∧ l.length = 4 := by
  obtain ⟨-, l, r, h1, h2, -⟩ := C46_binauralize pairHull !![1, 0, 2; 0, 3, 0] (0.1, 0) twoHrirs twoHrirs_consistent twoHrirs_grid.2.1 (by simp [twoHrirs]) (by norm_num)
  exact ⟨l, r, h1, by simpa [twoHrirs] using h2⟩

/-- **C46** `binauralize` rejects HRIRs of another sampling rate and a wrong number of loudspeaker signals. -/
theorem C46_binauralize_reject {L R S : ℕ} (h : Hull L) (ls : Matrix (Fin R) (Fin S) ℝ) (fs : ℝ) (orientation : ℝ × ℝ) (hr : HRIRs)
    (hbad : hr.fs ≠ fs ∨ R ≠ L) : binauralize h ls fs orientation hr = .error .assertionError := by
  rw [binauralize]
  split
  · rfl
  · rename_i hf
    rw [dif_neg (by tauto)]

example : binauralize pairHull (1 : Matrix (Fin 2) (Fin 2) ℝ) 44100 (0, 0) twoHrirs = .error .assertionError :=
  C46_binauralize_reject _ _ _ _ _ (Or.inl (by norm_num [twoHrirs]))

end Verif.Decoder
