import Verif.Props.Binauralize
import Verif.Model.SdmRender

/-! C100: binaural rendering of a spatial impulse response on virtual loudspeakers. -/

namespace Verif.Props

open Verif.Utils Verif.Sig Verif.Decoder Verif.Parsa Real

open Classical in
/-- `out` is what two ears receive from the loudspeaker signals `y`: every loudspeaker that is not silent contributes the convolution of its signal, attenuated by
distance, with the nearest head-related impulse response. -/
def EarSignals {L S : ℕ} (h : Hull L) (y : Fin L → Fin S → ℝ) (hr : HRIRs) (out : List ℝ × List ℝ) : Prop :=
  ∃ idx : Fin L → ℕ, out.1.length = S + hr.numSamples - 1 ∧ out.2.length = S + hr.numSamples - 1 ∧
    (∀ k, let v := h.points k - h.listener
      IsNearest hr.azi hr.zen (cart2sph (v 0) (v 1) (v 2) false false).1 (cart2sph (v 0) (v 1) (v 2) false false).2.1 (idx k)) ∧
    ∀ n < S + hr.numSamples - 1,
      out.1.getD n 0 = (∑ k, if ∃ s, |y k s / norm3 (h.points k - h.listener) ^ h.a| > 10e-6 then
        ∑ s : Fin S, (if (s : ℕ) ≤ n then y k s / norm3 (h.points k - h.listener) ^ h.a * (hr.left.rows.getD (idx k) []).getD (n - s) 0 else 0) else 0) ∧
      out.2.getD n 0 = (∑ k, if ∃ s, |y k s / norm3 (h.points k - h.listener) ^ h.a| > 10e-6 then
        ∑ s : Fin S, (if (s : ℕ) ≤ n then y k s / norm3 (h.points k - h.listener) ^ h.a * (hr.right.rows.getD (idx k) []).getD (n - s) 0 else 0) else 0)

theorem earSignals_binauralize {L S : ℕ} (h : Hull L) (y : Fin L → Fin S → ℝ) (hr : HRIRs) (hc : hr.Consistent) (hne : hr.azi ≠ []) (hT : 1 ≤ hr.numSamples) (hS : 1 ≤ S) :
    ∃ out, binauralize h (R := L) (S := S) y hr.fs (0, 0) hr = .ok out ∧ EarSignals h y hr out := by
  obtain ⟨idx, l, r, h1, h2, h3, h4, h5⟩ := C46_binauralize h y (0, 0) hr hc hne hT hS
  refine ⟨(l, r), h1, idx, h2, h3, ?_, h5⟩
  intro k
  have := h4 k
  simpa using this

theorem binauralize_cast {L R R' S S' : ℕ} (h : Hull L) (hR : R = R') (hS : S = S') (A : Matrix (Fin R) (Fin S) ℝ) (B : Matrix (Fin R') (Fin S') ℝ) (fs : ℝ) (o : ℝ × ℝ) (hr : HRIRs)
    (hAB : ∀ i j, A i j = B (Fin.cast hR i) (Fin.cast hS j)) : binauralize h A fs o hr = binauralize h B fs o hr := by
  subst hR hS
  have : A = B := by
    funext i j
    exact hAB i j
  rw [this]

theorem binauralize_rows {L S : ℕ} (h : Hull L) (hL : 0 < L) (y : Fin L → Fin S → ℝ) (fs : ℝ) (hr : HRIRs) :
    binauralize h (rowsMatrix (List.ofFn fun l => List.ofFn (y l))) fs (0, 0) hr = binauralize h (R := L) (S := S) y fs (0, 0) hr := by
  have hS : ((List.ofFn fun l => List.ofFn (y l)).headD []).length = S := by
    obtain ⟨L, rfl⟩ := Nat.exists_eq_add_of_lt hL
    simp [List.ofFn_succ]
  refine binauralize_cast h (by simp) hS _ _ _ _ _ fun i j => ?_
  have hi : (i : ℕ) < L := by have := i.2; simpa using this
  have hj : (j : ℕ) < S := by have := j.2; omega
  unfold rowsMatrix
  have hrow : (List.ofFn fun l => List.ofFn (y l)).getD (i : ℕ) [] = List.ofFn (y ⟨i, hi⟩) := by
    rw [List.getD_eq_getElem?_getD, List.getElem?_ofFn, dif_pos hi, Option.getD_some]
  rw [hrow, getD_ofFn, dif_pos hj]
  rfl

/-- **C100**: without post equalisation the two ears receive the pressure signal distributed to the loudspeakers by the gains. -/
theorem C100_plain {L S : ℕ} (hL : 0 < L) (hS : 0 < S) (h : Hull L) (p : Fin S → ℝ) (gains : Matrix (Fin S) (Fin L) ℝ) (hr : HRIRs) (hc : hr.Consistent) (hne : hr.azi ≠ [])
    (hT : 1 ≤ hr.numSamples) :
    ∃ out, renderBinauralLoudspeakerSdm h (List.ofFn p) gains hr.fs none (.ok hr) = .ok out ∧ EarSignals h (fun l s => p s * gains s l) hr out := by
  obtain ⟨out, h1, h2⟩ := earSignals_binauralize h (fun l s => p s * gains s l) hr hc hne hT hS
  refine ⟨out, ?_, h2⟩
  unfold renderBinauralLoudspeakerSdm
  rw [if_neg (by simp), (C46_loudspeaker_signals h gains p).1]
  simp only [Except.bind]
  rw [binauralize_rows h hL, h1]

/-- **C100**: a post equalisation receives the loudspeaker signals `p[s] * gains[s, l]`, and the ears receive what it returns; its exceptions are passed on. -/
theorem C100_equalised {L S S' : ℕ} (hL : 0 < L) (hS : 0 < S') (h : Hull L) (p : Fin S → ℝ) (gains : Matrix (Fin S) (Fin L) ℝ) (f : List (List ℝ) → Py (List (List ℝ)))
    (hr : HRIRs) (hc : hr.Consistent) (hne : hr.azi ≠ []) (hT : 1 ≤ hr.numSamples) :
    (∀ y : Fin L → Fin S' → ℝ, f (List.ofFn fun l => List.ofFn fun s => p s * gains s l) = .ok (List.ofFn fun l => List.ofFn (y l)) →
      ∃ out, renderBinauralLoudspeakerSdm h (List.ofFn p) gains hr.fs (some f) (.ok hr) = .ok out ∧ EarSignals h y hr out) ∧
    (∀ e, f (List.ofFn fun l => List.ofFn fun s => p s * gains s l) = .error e → renderBinauralLoudspeakerSdm h (List.ofFn p) gains hr.fs (some f) (.ok hr) = .error e) := by
  constructor
  · intro y hy
    obtain ⟨out, h1, h2⟩ := earSignals_binauralize h y hr hc hne hT hS
    refine ⟨out, ?_, h2⟩
    unfold renderBinauralLoudspeakerSdm
    rw [if_neg (by simp), (C46_loudspeaker_signals h gains p).1]
    simp only [Except.bind, hy]
    rw [binauralize_rows h hL, h1]
  · intro e he
    unfold renderBinauralLoudspeakerSdm
    rw [if_neg (by simp), (C46_loudspeaker_signals h gains p).1]
    simp only [Except.bind, he]

/-- **C100**: gains for another number of samples than the pressure signal or another number of loudspeakers than the setup are refused, as is a post equalisation
that returns another number of rows, and HRIRs that cannot be loaded or have another rate. -/
theorem C100_reject {L S R : ℕ} (h : Hull L) (p : List ℝ) (gains : Matrix (Fin S) (Fin R) ℝ) (fs : ℝ) (post : Option (List (List ℝ) → Py (List (List ℝ)))) (hr : Py HRIRs) :
    (p.length ≠ S ∨ R ≠ L → renderBinauralLoudspeakerSdm h p gains fs post hr = .error .assertionError) ∧
    (p.length = S → R = L → ∀ (rows : List (List ℝ)) (h' : HRIRs), post = some (fun _ => .ok rows) → hr = .ok h' → (rows.length ≠ L ∨ h'.fs ≠ fs) →
      renderBinauralLoudspeakerSdm h p gains fs post hr = .error .assertionError) ∧
    (p.length = S → R = L → post = none → ∀ e, hr = .error e → renderBinauralLoudspeakerSdm h p gains fs post hr = .error e) := by
  refine ⟨?_, ?_, ?_⟩
  · intro hbad
    unfold renderBinauralLoudspeakerSdm
    split
    · rfl
    · rename_i h1
      rw [C46_reject h gains (some p) (by tauto)]
      rfl
  · intro hp hR rows h' hpost hh hbad
    subst hp hR hpost hh
    unfold renderBinauralLoudspeakerSdm
    rw [if_neg (by simp)]
    unfold loudspeakerSignals
    simp only [Option.getD_some, ne_eq, not_true_eq_false, if_false, if_true, Except.bind]
    exact C46_binauralize_reject h _ fs (0, 0) h' (by tauto)
  · intro hp hR hpost e he
    subst hp hR hpost he
    unfold renderBinauralLoudspeakerSdm
    rw [if_neg (by simp)]
    unfold loudspeakerSignals
    simp only [Option.getD_some, ne_eq, not_true_eq_false, if_false, if_true, Except.bind]

/-- Two loudspeakers, three samples. -/
example : ∃ out, renderBinauralLoudspeakerSdm pairHull (List.ofFn ![1, 0, 2]) !![1, 2; 3, 4; 5, 6] 48000 none (.ok twoHrirs) = .ok out ∧ out.1.length = 4 := by
  obtain ⟨out, h1, -, h2, -⟩ := C100_plain (by norm_num) (by norm_num) pairHull ![1, 0, 2] !![1, 2; 3, 4; 5, 6] twoHrirs twoHrirs_consistent twoHrirs_grid.2.1 (by simp [twoHrirs])
  exact ⟨out, h1, by simpa [twoHrirs] using h2⟩

/-- A post equalisation that halves all signals. -/
example : ∃ out, renderBinauralLoudspeakerSdm pairHull (List.ofFn ![1, 0, 2]) !![1, 2; 3, 4; 5, 6] 48000 (some fun rows => .ok (rows.map fun r => r.map (· / 2))) (.ok twoHrirs) = .ok out := by
  obtain ⟨out, h1, -⟩ := (C100_equalised (by norm_num) (by norm_num) pairHull ![1, 0, 2] !![1, 2; 3, 4; 5, 6] (fun rows => .ok (rows.map fun r => r.map (· / 2))) twoHrirs twoHrirs_consistent
    twoHrirs_grid.2.1 (by simp [twoHrirs])).1 (fun l s => (![1, 0, 2] : Fin 3 → ℝ) s * (!![1, 2; 3, 4; 5, 6] : Matrix (Fin 3) (Fin 2) ℝ) s l / 2)
    (by simp only [List.map_ofFn]; rfl)
  exact ⟨out, h1⟩

end Verif.Props
