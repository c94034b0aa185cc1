import Verif.Model.Ctf
import Verif.Props.MagLs
import Verif.Props.ProcessSignals

/-!
C90: common transfer function equalisation of head-related impulse responses.
-/

namespace Verif.Props
open Real Verif.Sig Verif.Process Verif.Decoder

/-! ### Building blocks -/

theorem avg_length (S : ℕ) (w : List ℝ) (a : Arr2) : (ctfAvg S w a).length = 8 * S + 1 := by simp [ctfAvg]

theorem ctfSmooth_length (l r : List ℝ) (h : l.length = r.length) : (ctfSmooth l r).length = l.length := by
  simp [ctfSmooth, C57_length, h]

theorem smooth_scale (c : ℝ) (a : List ℝ) : fracOctaveSmoothing (a.map (c * ·)) 1 true = (fracOctaveSmoothing a 1 true).map (c * ·) := by
  have := C57_linear_partial a a rfl c 0 1 one_pos true
  simpa using this

theorem avg_scale (S : ℕ) (w : List ℝ) (a : Arr2) (c : ℝ) : ctfAvg S w (amplify c a) = (ctfAvg S w a).map (|c| * ·) := by
  unfold ctfAvg
  rw [List.map_map]
  refine List.map_congr_left fun k _ => ?_
  simp only [Function.comp, hrtf_amplify]
  have : ∑ g ∈ Finset.range w.length, w.getD g 0 * ‖(c : ℂ) * hrtf (16 * S) a g k‖ ^ 2
      = c ^ 2 * ∑ g ∈ Finset.range w.length, w.getD g 0 * ‖hrtf (16 * S) a g k‖ ^ 2 := by
    rw [Finset.mul_sum]
    refine Finset.sum_congr rfl fun g _ => ?_
    rw [norm_mul, Complex.norm_real, mul_pow, Real.norm_eq_abs, sq_abs]; ring
  rw [this, Real.sqrt_mul (sq_nonneg c), Real.sqrt_sq_eq_abs]
  ring

theorem ctfSmooth_scale (c : ℝ) (l r : List ℝ) : ctfSmooth (l.map (c * ·)) (r.map (c * ·)) = (ctfSmooth l r).map (c * ·) := by
  unfold ctfSmooth
  rw [smooth_scale, smooth_scale, List.zipWith_map, List.map_zipWith]
  congr 1
  funext x y; ring

theorem pySlice_map {α β : Type} (f : α → β) (l : List α) (a b : ℤ) : pySlice (l.map f) a b = (pySlice l a b).map f := by
  simp [pySlice]

theorem norm_scale (c : ℝ) (H : List ℝ) (i : ℕ) : ctfNorm (H.map (c * ·)) i = (ctfNorm H i).map (|c| * ·) := by
  unfold ctfNorm
  simp only [pySlice_map, List.length_map, List.map_map]
  split_ifs with h
  · rfl
  · simp only [Option.map_some]
    congr 1
    have : ∀ l : List ℝ, (l.map ((fun x => |x|) ∘ fun x => c * x)).sum = |c| * (l.map fun x => |x|).sum := by
      intro l
      rw [← List.sum_map_mul_left]
      congr 1
      refine List.map_congr_left fun x _ => ?_
      simp [abs_mul]
    rw [this]; ring

theorem inv_scale (c : ℝ) (hc : 0 < c) (H : List ℝ) (norm : ℝ) (lo hi k : ℕ) : ctfInv (H.map (c * ·)) (c * norm) lo hi k = ctfInv H norm lo hi k := by
  unfold ctfInv
  have : (H.map (c * ·)).getD k 0 = c * H.getD k 0 := by
    rw [List.getD_eq_getElem?_getD, List.getElem?_map, List.getD_eq_getElem?_getD]
    cases H[k]? <;> simp
  rw [this, List.length_map, mul_div_mul_left _ _ hc.ne']

theorem ctfWith_scale (minPhase : List ℝ → List ℝ) (h : HRIRs) (isMin : Bool) (lims : ℝ × ℝ) (w : List ℝ) (c : ℝ) (hc : c ≠ 0) :
    ctfWith minPhase { h with left := amplify c h.left, right := amplify c h.right } isMin lims w = ctfWith minPhase h isMin lims w := by
  unfold ctfWith
  have hcols : (amplify c h.left).cols = h.left.cols := rfl
  simp only [hcols, avg_scale, ctfSmooth_scale, norm_scale, Option.map_map]
  have habs : 0 < |c| := abs_pos.2 hc
  have : ∀ lo hi, ((fun norm => ctfTaps minPhase h.left.cols isMin
      (ctfInv ((ctfSmooth (ctfAvg h.left.cols w h.left) (ctfAvg h.left.cols w h.right)).map (|c| * ·)) norm lo hi)) ∘ fun x => |(|c|)| * x)
      = fun norm => ctfTaps minPhase h.left.cols isMin (ctfInv (ctfSmooth (ctfAvg h.left.cols w h.left) (ctfAvg h.left.cols w h.right)) norm lo hi) := by
    intro lo hi
    funext norm
    simp only [Function.comp]
    congr 1
    funext k
    rw [abs_abs, inv_scale _ habs]
  simp only [this]

/-- C90: the equaliser does not depend on a common gain or on the polarity of the responses. -/
theorem C90_gain (minPhase : List ℝ → List ℝ) (pinv : (Q K : ℕ) → Matrix (Fin Q) (Fin K) ℝ → Matrix (Fin K) (Fin Q) ℝ) (h : HRIRs) (isMin : Bool)
    (lims : ℝ × ℝ) (gw : Option (List ℝ)) (c : ℝ) (hc : c ≠ 0) :
    hrirsCtf minPhase pinv { h with left := amplify c h.left, right := amplify c h.right } isMin lims gw = hrirsCtf minPhase pinv h isMin lims gw := by
  unfold hrirsCtf
  cases gw with
  | none => simp only [ctfWith_scale _ _ _ _ _ _ hc]
  | some w => simp only [ctfWith_scale _ _ _ _ _ _ hc]

/-- `C90_gain`: responses of one direction turned upside down. -/
example (minPhase pinv) : hrirsCtf minPhase pinv ⟨amplify (-2) ⟨2, [[1, 3]]⟩, amplify (-2) ⟨2, [[0, 1]]⟩, [0], [1], 48000, 1, 2⟩ false (50, 16000) none
    = hrirsCtf minPhase pinv ⟨⟨2, [[1, 3]]⟩, ⟨2, [[0, 1]]⟩, [0], [1], 48000, 1, 2⟩ false (50, 16000) none :=
  C90_gain minPhase pinv ⟨⟨2, [[1, 3]]⟩, ⟨2, [[0, 1]]⟩, [0], [1], 48000, 1, 2⟩ false (50, 16000) none (-2) (by norm_num)

theorem ctfSmooth_comm (l r : List ℝ) : ctfSmooth l r = ctfSmooth r l := by
  unfold ctfSmooth
  rw [List.zipWith_comm]
  congr 1
  funext x y; ring

/-- C90: exchanging the ears does not change the equaliser. -/
theorem C90_swap (minPhase : List ℝ → List ℝ) (pinv : (Q K : ℕ) → Matrix (Fin Q) (Fin K) ℝ → Matrix (Fin K) (Fin Q) ℝ) (h : HRIRs)
    (hcols : h.left.cols = h.right.cols) (isMin : Bool) (lims : ℝ × ℝ) (gw : Option (List ℝ)) :
    hrirsCtf minPhase pinv { h with left := h.right, right := h.left } isMin lims gw = hrirsCtf minPhase pinv h isMin lims gw := by
  have : ∀ w, ctfWith minPhase { h with left := h.right, right := h.left } isMin lims w = ctfWith minPhase h isMin lims w := by
    intro w
    unfold ctfWith
    simp only [hcols]
    rw [ctfSmooth_comm]
  unfold hrirsCtf
  simp only [this]

/-- `C90_swap` for the responses of one direction. -/
example (minPhase pinv) : hrirsCtf minPhase pinv ⟨⟨2, [[0, 1]]⟩, ⟨2, [[1, 3]]⟩, [0], [1], 48000, 1, 2⟩ false (50, 16000) none
    = hrirsCtf minPhase pinv ⟨⟨2, [[1, 3]]⟩, ⟨2, [[0, 1]]⟩, [0], [1], 48000, 1, 2⟩ false (50, 16000) none :=
  C90_swap minPhase pinv ⟨⟨2, [[1, 3]]⟩, ⟨2, [[0, 1]]⟩, [0], [1], 48000, 1, 2⟩ rfl false (50, 16000) none

/-- The directions of a set of responses in another order. -/
def reorder {G : ℕ} (σ : Equiv.Perm (Fin G)) (h : HRIRs) : HRIRs :=
  { h with
    left := ⟨h.left.cols, List.ofFn fun g => h.left.rows.getD (σ g) []⟩
    right := ⟨h.right.cols, List.ofFn fun g => h.right.rows.getD (σ g) []⟩
    azi := List.ofFn fun g => h.azi.getD (σ g) 0
    zen := List.ofFn fun g => h.zen.getD (σ g) 0 }

theorem avg_reorder {G : ℕ} (σ : Equiv.Perm (Fin G)) (S c : ℕ) (w : List ℝ) (hw : w.length = G) (a : Arr2) :
    ctfAvg S (List.ofFn fun g => w.getD (σ g) 0) ⟨c, List.ofFn fun g => a.rows.getD (σ g) []⟩ = ctfAvg S w a := by
  unfold ctfAvg
  refine List.map_congr_left fun k _ => ?_
  congr 3
  rw [List.length_ofFn, hw, Finset.sum_range, Finset.sum_range]
  rw [← Equiv.sum_comp σ (fun g : Fin G => w.getD g 0 * ‖hrtf (16 * S) a g k‖ ^ 2)]
  refine Finset.sum_congr rfl fun g _ => ?_
  have h1 : (List.ofFn fun g => w.getD (σ g) 0).getD (g : ℕ) 0 = w.getD (σ g) 0 := by
    rw [List.getD_eq_getElem _ _ (by simp)]; simp
  have h2 : (List.ofFn fun g => a.rows.getD (σ g) []).getD (g : ℕ) [] = a.rows.getD (σ g) [] := by
    rw [List.getD_eq_getElem _ _ (by simp)]; simp
  simp only [hrtf, h1, h2]

/-- C90: the order of the directions does not matter. -/
theorem C90_reorder (minPhase : List ℝ → List ℝ) (pinv : (Q K : ℕ) → Matrix (Fin Q) (Fin K) ℝ → Matrix (Fin K) (Fin Q) ℝ) (h : HRIRs) (isMin : Bool)
    (lims : ℝ × ℝ) (w : List ℝ) (hw : w.length = h.azi.length) (σ : Equiv.Perm (Fin h.azi.length)) :
    hrirsCtf minPhase pinv (reorder σ h) isMin lims (some (List.ofFn fun g => w.getD (σ g) 0)) = hrirsCtf minPhase pinv h isMin lims (some w) := by
  simp only [hrirsCtf, ctfWith, reorder]
  rw [avg_reorder σ _ _ w hw, avg_reorder σ _ _ w hw]
  simp only [List.length_ofFn, hw]
  rfl

/-- `C90_reorder`: two directions exchanged together with their weights. -/
example (minPhase pinv) : hrirsCtf minPhase pinv ⟨⟨2, [[1, 3], [4, 5]]⟩, ⟨2, [[0, 1], [2, 7]]⟩, [0, 2], [1, 3 / 2], 48000, 2, 2⟩ false (50, 16000) (some [6, 5])
    = hrirsCtf minPhase pinv ⟨⟨2, [[4, 5], [1, 3]]⟩, ⟨2, [[2, 7], [0, 1]]⟩, [2, 0], [3 / 2, 1], 48000, 2, 2⟩ false (50, 16000) (some [5, 6]) :=
  C90_reorder minPhase pinv ⟨⟨2, [[4, 5], [1, 3]]⟩, ⟨2, [[2, 7], [0, 1]]⟩, [2, 0], [3 / 2, 1], 48000, 2, 2⟩ false (50, 16000) [5, 6] rfl (Equiv.swap (0 : Fin 2) 1)

/-! ### The response of the equaliser -/

/-- `i` is the first of the `n / 2 + 1` frequencies `k fs / n` that is nearest to `f`. -/
def NearestBin (n : ℕ) (fs f : ℝ) (i : ℕ) : Prop :=
  i ≤ n / 2 ∧ (∀ k ≤ n / 2, |(i : ℝ) * fs / n - f| ≤ |(k : ℝ) * fs / n - f|) ∧ ∀ k < i, |(i : ℝ) * fs / n - f| < |(k : ℝ) * fs / n - f|

theorem magCut_nearest {n : ℕ} {fs f : ℝ} {i : ℕ} (h : NearestBin n fs f i) : magCut n fs f = .ok i := by
  obtain ⟨c, h1, h2, h3, h4⟩ := cut_spec n fs f
  rw [h1]
  obtain ⟨g1, g2, g3⟩ := h
  rcases lt_trichotomy c i with hlt | rfl | hlt
  · exact absurd (g3 c hlt) (not_lt.2 (h3 i g1))
  · rfl
  · exact absurd (h4 i hlt) (not_lt.2 (g2 c h2))

theorem nearest_exists (n : ℕ) (fs f : ℝ) : ∃ i, NearestBin n fs f i := by
  obtain ⟨c, -, h2, h3, h4⟩ := cut_spec n fs f
  exact ⟨c, h2, h3, h4⟩

/-- The colour of one ear: root of the weighted sum over the directions of the squared magnitudes, for `8 S + 1` frequencies. -/
noncomputable def earColour (S : ℕ) (w : List ℝ) (rows : List (List ℝ)) : List ℝ :=
  (List.range (8 * S + 1)).map fun k : ℕ => √(∑ g ∈ Finset.range w.length, w.getD g 0
    * ‖∑ m ∈ Finset.range (16 * S), (((rows.getD g []).getD m 0 : ℝ) : ℂ) * Complex.exp (-(2 * π * Complex.I * (k * m) / (16 * S : ℕ)))‖ ^ 2)

/-- The colour of both ears together, smoothed over an octave. -/
noncomputable def ctfColour (S : ℕ) (w : List ℝ) (h : HRIRs) (k : ℕ) : ℝ :=
  ((fracOctaveSmoothing (earColour S w h.left.rows) 1 true).getD k 0 + (fracOctaveSmoothing (earColour S w h.right.rows) 1 true).getD k 0) / 2

theorem avg_eq (S : ℕ) (w : List ℝ) (a : Arr2) : ctfAvg S w a = (earColour S w a.rows).map (1 / (8 * π) * ·) := by
  unfold ctfAvg earColour
  rw [List.map_map]
  refine List.map_congr_left fun k _ => ?_
  simp only [Function.comp, hrtf, Parsa.dft]
  ring

theorem earColour_length (S : ℕ) (w : List ℝ) (r : List (List ℝ)) : (earColour S w r).length = 8 * S + 1 := by simp [earColour]

theorem smooth_eq (S : ℕ) (w : List ℝ) (h : HRIRs) :
    ctfSmooth (ctfAvg S w h.left) (ctfAvg S w h.right) = ((List.range (8 * S + 1)).map (ctfColour S w h)).map (1 / (8 * π) * ·) := by
  rw [avg_eq, avg_eq, ctfSmooth_scale]
  congr 1
  apply List.ext_getElem
  · rw [ctfSmooth_length _ _ (by rw [earColour_length, earColour_length]), earColour_length]; simp
  · intro i h1 h2
    have hi : i < 8 * S + 1 := by simpa using h2
    simp only [ctfSmooth, List.getElem_zipWith, List.getElem_map, List.getElem_range, ctfColour]
    rw [List.getD_eq_getElem _ _ (by rw [C57_length, earColour_length]; exact hi), List.getD_eq_getElem _ _ (by rw [C57_length, earColour_length]; exact hi)]
    ring

theorem colour_nonneg (S : ℕ) (w : List ℝ) (r : List (List ℝ)) (k : ℕ) : 0 ≤ (earColour S w r).getD k 0 := by
  rcases lt_or_ge k (8 * S + 1) with hk | hk
  · rw [List.getD_eq_getElem _ _ (by rw [earColour_length]; exact hk)]
    simp only [earColour, List.getElem_map]
    exact Real.sqrt_nonneg _
  · rw [List.getD_eq_default _ _ (by rw [earColour_length]; exact hk)]

theorem ctfColour_nonneg (S : ℕ) (w : List ℝ) (h : HRIRs) (k : ℕ) : 0 ≤ ctfColour S w h k := by
  have : ∀ r, 0 ≤ (fracOctaveSmoothing (earColour S w r) 1 true).getD k 0 := by
    intro r
    rcases lt_or_ge k (earColour S w r).length with hk | hk
    · obtain ⟨j, -, -, -, -, -, h3, -⟩ := C57_between (earColour S w r) 1 one_pos true k hk
      exact (colour_nonneg S w r j).trans h3
    · rw [List.getD_eq_default _ _ (by rw [C57_length]; exact hk)]
  unfold ctfColour
  have h1 := this h.left.rows
  have h2 := this h.right.rows
  linarith

/-- The weight of the inversion: one between the limits, a raised cosine outside. -/
noncomputable def bandWeight (S lo hi k : ℕ) : ℝ :=
  if hi ≤ k then cos (π * (k - hi + 1 : ℕ) / (2 * (8 * S + 1 - hi : ℕ))) ^ 2 else if k < lo then sin (π * k / (2 * lo)) ^ 2 else 1

theorem ctfWeight_eq (S lo hi k : ℕ) (hhi : hi ≤ 8 * S) : ctfWeight (8 * S + 1) lo hi k = bandWeight S lo hi k := by
  unfold ctfWeight bandWeight
  split_ifs with h1 h2
  · have hM : (0 : ℝ) < (8 * S + 1 - hi : ℕ) := by exact_mod_cast (by omega)
    generalize 8 * S + 1 - hi = M at hM
    unfold hanning
    rw [Nat.add_sub_cancel, show M + 1 + (k - hi) = M + (k - hi + 1) by ring]
    generalize k - hi + 1 = j
    rw [cos_sq]
    have : 2 * π * ((M + j : ℕ) : ℝ) / ((2 * M : ℕ) : ℝ) = 2 * (π * j / (2 * M)) + π := by
      push_cast; field_simp; ring
    rw [this, cos_add_pi]
    ring
  · unfold hanning
    rw [Nat.add_sub_cancel, sin_sq_eq_half_sub]
    have : 2 * π * (k : ℝ) / ((2 * lo : ℕ) : ℝ) = 2 * (π * k / (2 * lo)) := by push_cast; ring
    rw [this]; norm_num; ring
  · rfl

theorem norm_eq (S : ℕ) (T : ℕ → ℝ) (hT : ∀ k, 0 ≤ T k) (c : ℝ) (hc : 0 < c) (i : ℕ) (h1 : 5 ≤ i) (h2 : i + 5 ≤ 8 * S + 1) :
    ctfNorm (((List.range (8 * S + 1)).map T).map (c * ·)) i = some (c * ((∑ j ∈ Finset.range 10, T (i - 5 + j)) / 10)) := by
  rw [norm_scale]
  have hs : pySlice ((List.range (8 * S + 1)).map T) ((i : ℤ) - 5) ((i : ℤ) + 5) = (List.range 10).map fun j => T (i - 5 + j) := by
    unfold pySlice sliceBound
    rw [if_neg (by omega), if_neg (by omega)]
    have e1 : (min ((i : ℤ) + 5) (((List.range (8 * S + 1)).map T).length : ℤ)).toNat = i + 5 := by simp; omega
    have e2 : (min ((i : ℤ) - 5) (((List.range (8 * S + 1)).map T).length : ℤ)).toNat = i - 5 := by simp; omega
    rw [e1, e2]
    apply List.ext_getElem
    · simp; omega
    · intro j h1 h2
      simp
  unfold ctfNorm
  simp only [hs, List.length_map, List.length_range, List.map_map]
  rw [if_neg (by norm_num), Option.map_some, abs_of_pos hc]
  congr 3
  simp [List.range_succ, Finset.sum_range_succ, abs_of_nonneg (hT _)]
  ring

/-- The amplitude response of the equaliser, from the colour `T`: its inverse, relative to the mean of the ten bins around 1 kHz, faded
into one outside the limits. -/
noncomputable def ctfTarget (S : ℕ) (T : ℕ → ℝ) (lo hi i1k k : ℕ) : ℝ :=
  bandWeight S lo hi k * ((∑ j ∈ Finset.range 10, T (i1k - 5 + j)) / 10 / T k) + (1 - bandWeight S lo hi k)

theorem ctf_ok (minPhase : List ℝ → List ℝ) (h : HRIRs) (isMin : Bool) (lims : ℝ × ℝ) (w : List ℝ)
    (hw : w.length = h.azi.length) (hS : 0 < h.left.cols) (lo hi i1k : ℕ) (hlo : NearestBin (16 * h.left.cols) h.fs lims.1 lo)
    (hhi : NearestBin (16 * h.left.cols) h.fs lims.2 hi) (hk : NearestBin (16 * h.left.cols) h.fs 1000 i1k) (h5 : 5 ≤ i1k) (h6 : i1k + 4 ≤ 8 * h.left.cols) :
    ∃ D : ℕ → ℝ, (∀ k ≤ 8 * h.left.cols, D k = ctfTarget h.left.cols (ctfColour h.left.cols w h) lo hi i1k k) ∧
      ctfWith minPhase h isMin lims w = .ok (some (ctfTaps minPhase h.left.cols isMin D)) := by
  have hc : (0 : ℝ) < 1 / (8 * π) := by have := pi_pos; positivity
  refine ⟨ctfInv (((List.range (8 * h.left.cols + 1)).map (ctfColour h.left.cols w h)).map (1 / (8 * π) * ·))
    (1 / (8 * π) * ((∑ j ∈ Finset.range 10, ctfColour h.left.cols w h (i1k - 5 + j)) / 10)) lo hi, fun k hk => ?_, ?_⟩
  · rw [inv_scale _ hc]
    unfold ctfInv ctfTarget
    rw [List.length_map, List.length_range, ctfWeight_eq _ _ _ _ (by have := hhi.1; omega), List.getD_eq_getElem _ _ (by simp; omega)]
    simp
  · unfold ctfWith
    simp only [hw, ne_eq, not_true_eq_false, if_false, if_neg hS.ne', magCut_nearest hlo, magCut_nearest hhi, magCut_nearest hk, Except.bind, Except.map]
    rw [smooth_eq, norm_eq _ _ (ctfColour_nonneg _ _ _) _ hc _ h5 (by omega)]
    rfl

/-- The window with raised cosine shape, zero at both ends; a window of one sample is one. -/
noncomputable def hannWindow (M t : ℕ) : ℝ := if M = 1 then 1 else (1 - cos (2 * π * t / ((M : ℝ) - 1))) / 2

theorem npHanning_eq (M t : ℕ) (hM : 0 < M) : npHanning M t = hannWindow M t := by
  unfold npHanning hannWindow hanning
  split_ifs
  · rfl
  · rw [Nat.cast_sub hM, Nat.cast_one]; ring

/-- C90: the equaliser is the windowed impulse response of the inverse of the colour of the set, faded into one outside the limits; with
minimum phase it is the beginning of the minimum phase version of the response with the squared amplitudes. -/
theorem C90_inverse (minPhase : List ℝ → List ℝ) (pinv : (Q K : ℕ) → Matrix (Fin Q) (Fin K) ℝ → Matrix (Fin K) (Fin Q) ℝ) (h : HRIRs) (lims : ℝ × ℝ)
    (w : List ℝ) (hw : w.length = h.azi.length) (hS : 0 < h.left.cols) (lo hi i1k : ℕ) (hlo : NearestBin (16 * h.left.cols) h.fs lims.1 lo)
    (hhi : NearestBin (16 * h.left.cols) h.fs lims.2 hi) (hk : NearestBin (16 * h.left.cols) h.fs 1000 i1k) (h5 : 5 ≤ i1k) (h6 : i1k + 4 ≤ 8 * h.left.cols) :
    (∃ x : ℕ → ℝ, HasSpectrum (8 * h.left.cols) x (fun k => (ctfTarget h.left.cols (ctfColour h.left.cols w h) lo hi i1k k : ℂ)) ∧
      hrirsCtf minPhase pinv h false lims (some w) = .ok (some ((List.range h.left.cols).map fun t =>
        x ((t + (16 * h.left.cols - (h.left.cols / 2 + 1))) % (16 * h.left.cols)) * hannWindow h.left.cols t))) ∧
    ∃ x : ℕ → ℝ, HasSpectrum (8 * h.left.cols) x (fun k => (ctfTarget h.left.cols (ctfColour h.left.cols w h) lo hi i1k k : ℂ) ^ 2) ∧
      hrirsCtf minPhase pinv h true lims (some w) = .ok (some ((minPhase ((List.range (16 * h.left.cols)).map fun t =>
        x ((t + 8 * h.left.cols) % (16 * h.left.cols)))).take h.left.cols)) := by
  constructor
  · obtain ⟨D, hD, he⟩ := ctf_ok minPhase h false lims w hw hS lo hi i1k hlo hhi hk h5 h6
    refine ⟨irfftAt (8 * h.left.cols + 1) (fun k => (D k : ℂ)), ?_, ?_⟩
    · intro k hk
      have := dft_irfft (8 * h.left.cols) (by omega) (fun k => (D k : ℂ)) k hk
      simp only [← hD k hk]
      exact this
    · simp only [hrirsCtf, he, ctfTaps, Bool.false_eq_true, if_false]
      congr 2
      exact List.map_congr_left fun t ht => by rw [npHanning_eq _ _ hS]
  · obtain ⟨D, hD, he⟩ := ctf_ok minPhase h true lims w hw hS lo hi i1k hlo hhi hk h5 h6
    refine ⟨irfftAt (8 * h.left.cols + 1) (fun k => ((D k ^ 2 : ℝ) : ℂ)), ?_, ?_⟩
    · intro k hk
      have := dft_irfft (8 * h.left.cols) (by omega) (fun k => ((D k ^ 2 : ℝ) : ℂ)) k hk
      simp only [← hD k hk]
      simp only [Complex.ofReal_pow] at this ⊢
      exact this
    · simp only [hrirsCtf, he, ctfTaps, if_true]

/-- The hypotheses of `C90_inverse` are met by the responses of two directions of 32 samples at 51200 Hz, with limits on the frequency grid. -/
example : let h : HRIRs := ⟨⟨32, [[1], [2]]⟩, ⟨32, [[3], [4]]⟩, [0, 1], [1, 1], 51200, 2, 32⟩
    ([6, 6] : List ℝ).length = h.azi.length ∧ 0 < h.left.cols ∧ NearestBin (16 * h.left.cols) h.fs 100 1 ∧ NearestBin (16 * h.left.cols) h.fs 16000 160 ∧
      NearestBin (16 * h.left.cols) h.fs 1000 10 ∧ 5 ≤ 10 ∧ 10 + 4 ≤ 8 * h.left.cols := by
  have key : ∀ (f : ℝ) (i : ℕ), i ≤ 256 → f = i * 100 → NearestBin (16 * 32) 51200 f i := by
    rintro f i hi rfl
    refine ⟨by norm_num; exact hi, fun k _ => ?_, fun k hk => ?_⟩
    · norm_num
      rw [show (i : ℝ) * 51200 / 512 - i * 100 = 0 by ring, abs_zero]
      positivity
    · have : (k : ℝ) < i := by exact_mod_cast hk
      norm_num
      rw [show (i : ℝ) * 51200 / 512 - i * 100 = 0 by ring, abs_zero, abs_pos]
      intro h0
      linarith
  refine ⟨rfl, by norm_num, key _ _ (by norm_num) (by norm_num), key _ _ (by norm_num) (by norm_num), key _ _ (by norm_num) (by norm_num), by norm_num, by norm_num⟩

/-! ### Flat sets -/

/-- Every response of the ear has the same magnitude at all frequencies, `A g` in direction `g`. -/
def FlatEar (S : ℕ) (rows : List (List ℝ)) (A : ℕ → ℝ) : Prop :=
  ∀ g < rows.length, ∀ k ≤ 8 * S,
    ‖∑ m ∈ Finset.range (16 * S), (((rows.getD g []).getD m 0 : ℝ) : ℂ) * Complex.exp (-(2 * π * Complex.I * (k * m) / (16 * S : ℕ)))‖ = A g

theorem earColour_flat (S : ℕ) (w : List ℝ) (rows : List (List ℝ)) (A : ℕ → ℝ) (h : FlatEar S rows A) (hw : w.length = rows.length) :
    earColour S w rows = List.replicate (8 * S + 1) (√(∑ g ∈ Finset.range w.length, w.getD g 0 * A g ^ 2)) := by
  apply List.ext_getElem
  · simp [earColour]
  · intro k h1 h2
    have hk : k < 8 * S + 1 := by simpa using h2
    simp only [earColour, List.getElem_map, List.getElem_range, List.getElem_replicate]
    congr 1
    refine Finset.sum_congr rfl fun g hg => ?_
    rw [h g (by rw [← hw]; exact Finset.mem_range.1 hg) k (by omega)]

theorem irfft_one (h : ℕ) (hh : 0 < h) (t : ℕ) (ht : t < 2 * h) : irfftAt (h + 1) (fun _ => 1) t = if t = 0 then 1 else 0 := by
  rw [← irfft_dft h hh (fun m => if m = 0 then 1 else 0) t ht]
  refine irfft_congr _ _ _ (fun k _ => ?_) (by omega) t
  unfold Parsa.dft
  rw [Finset.sum_eq_single 0 (fun m _ hm => by simp [hm]) (fun hn => absurd (Finset.mem_range.2 (by omega)) hn)]
  simp

/-- C90: a set of responses with flat magnitudes and positive total needs no equalisation: the linear phase result is one impulse, at the
position `num_taps//2 + 1` and with the value of the window there; the minimum phase result comes from an impulse. -/
theorem C90_flat (minPhase : List ℝ → List ℝ) (pinv : (Q K : ℕ) → Matrix (Fin Q) (Fin K) ℝ → Matrix (Fin K) (Fin Q) ℝ) (h : HRIRs) (lims : ℝ × ℝ)
    (w : List ℝ) (hw : w.length = h.azi.length) (hl : h.left.rows.length = h.azi.length) (hr : h.right.rows.length = h.azi.length)
    (Al Ar : ℕ → ℝ) (hAl : FlatEar h.left.cols h.left.rows Al) (hAr : FlatEar h.left.cols h.right.rows Ar)
    (hpos : 0 < ∑ g ∈ Finset.range w.length, w.getD g 0 * Al g ^ 2) (i1k : ℕ)
    (hk : NearestBin (16 * h.left.cols) h.fs 1000 i1k) (h5 : 5 ≤ i1k) (h6 : i1k + 4 ≤ 8 * h.left.cols) :
    hrirsCtf minPhase pinv h false lims (some w)
      = .ok (some ((List.replicate h.left.cols 0).set (h.left.cols / 2 + 1) (hannWindow h.left.cols (h.left.cols / 2 + 1)))) ∧
    hrirsCtf minPhase pinv h true lims (some w)
      = .ok (some ((minPhase ((List.replicate (16 * h.left.cols) 0).set (8 * h.left.cols) 1)).take h.left.cols)) := by
  have hS : 0 < h.left.cols := by omega
  obtain ⟨lo, hlo⟩ := nearest_exists (16 * h.left.cols) h.fs lims.1
  obtain ⟨hi, hhi⟩ := nearest_exists (16 * h.left.cols) h.fs lims.2
  have hcol : ∃ c : ℝ, 0 < c ∧ ∀ k ≤ 8 * h.left.cols, ctfColour h.left.cols w h k = c := by
    refine ⟨(√(∑ g ∈ Finset.range w.length, w.getD g 0 * Al g ^ 2) + √(∑ g ∈ Finset.range w.length, w.getD g 0 * Ar g ^ 2)) / 2, ?_, fun k hk => ?_⟩
    · have h1 := Real.sqrt_pos.2 hpos
      have h2 := Real.sqrt_nonneg (∑ g ∈ Finset.range w.length, w.getD g 0 * Ar g ^ 2)
      linarith
    · unfold ctfColour
      rw [earColour_flat _ _ _ _ hAl (hw.trans hl.symm), earColour_flat _ _ _ _ hAr (hw.trans hr.symm), C57_const _ _ _ one_pos, C57_const _ _ _ one_pos,
        List.getD_eq_getElem _ _ (by simp; omega), List.getD_eq_getElem _ _ (by simp; omega), List.getElem_replicate, List.getElem_replicate]
  obtain ⟨c, hc, hcol⟩ := hcol
  have htar : ∀ k ≤ 8 * h.left.cols, ctfTarget h.left.cols (ctfColour h.left.cols w h) lo hi i1k k = 1 := by
    intro k hk
    unfold ctfTarget
    rw [Finset.sum_congr rfl fun j hj => hcol (i1k - 5 + j) (by have := Finset.mem_range.1 hj; omega), hcol k hk]
    simp only [Finset.sum_const, Finset.card_range, nsmul_eq_mul]
    field_simp
    ring
  have hone : ∀ (D : ℕ → ℝ) (t : ℕ), (∀ k ≤ 8 * h.left.cols, D k = 1) → t < 16 * h.left.cols →
      irfftAt (8 * h.left.cols + 1) (fun k => (D k : ℂ)) t = if t = 0 then 1 else 0 := by
    intro D t hD ht
    rw [← irfft_one (8 * h.left.cols) (by omega) t (by omega)]
    exact irfft_congr _ _ _ (fun k hk => by rw [hD k (by omega)]; simp) (by omega) t
  constructor
  · obtain ⟨D, hD, he⟩ := ctf_ok minPhase h false lims w hw hS lo hi i1k hlo hhi hk h5 h6
    simp only [hrirsCtf, he, ctfTaps, Bool.false_eq_true, if_false]
    congr 2
    apply List.ext_getElem
    · simp
    · intro t h1 h2
      have ht : t < h.left.cols := by simpa using h1
      simp only [List.getElem_map, List.getElem_range, List.getElem_set, List.getElem_replicate]
      rw [hone D _ (fun k hk => (hD k hk).trans (htar k hk)) (Nat.mod_lt _ (by omega))]
      by_cases hts : h.left.cols / 2 + 1 = t
      · rw [if_pos hts, if_pos, one_mul, hts, npHanning_eq _ _ hS]
        rw [show t + (16 * h.left.cols - (h.left.cols / 2 + 1)) = 16 * h.left.cols by omega, Nat.mod_self]
      · rw [if_neg hts, if_neg, zero_mul]
        intro h0
        obtain ⟨q, hq⟩ := Nat.dvd_of_mod_eq_zero h0
        have q1 : 0 < q := by
          rcases Nat.eq_zero_or_pos q with rfl | hq0
          · omega
          · exact hq0
        have q2 : q < 2 := by
          by_contra hge
          have : 16 * h.left.cols * 2 ≤ 16 * h.left.cols * q := Nat.mul_le_mul_left _ (by omega)
          omega
        have : q = 1 := by omega
        subst this
        omega
  · obtain ⟨D, hD, he⟩ := ctf_ok minPhase h true lims w hw hS lo hi i1k hlo hhi hk h5 h6
    simp only [hrirsCtf, he, ctfTaps, if_true]
    congr 4
    apply List.ext_getElem
    · simp
    · intro t h1 h2
      have ht : t < 16 * h.left.cols := by simpa using h1
      simp only [List.getElem_map, List.getElem_range, List.getElem_set, List.getElem_replicate]
      rw [hone (fun k => D k ^ 2) _ (fun k hk => by rw [hD k hk, htar k hk, one_pow]) (Nat.mod_lt _ (by omega))]
      by_cases hts : 8 * h.left.cols = t
      · rw [if_pos hts, if_pos]
        rw [show t + 8 * h.left.cols = 16 * h.left.cols by omega, Nat.mod_self]
      · rw [if_neg hts, if_neg]
        intro h0
        rcases lt_or_ge t (8 * h.left.cols) with hlt | hge
        · rw [Nat.mod_eq_of_lt (by omega)] at h0; omega
        · rw [Nat.mod_eq_sub_mod (by omega), Nat.mod_eq_of_lt (by omega)] at h0; omega

/-- C90: the errors, and the taps without value of short responses (fewer than five bins below 1 kHz). -/
theorem C90_errors (minPhase : List ℝ → List ℝ) (pinv : (Q K : ℕ) → Matrix (Fin Q) (Fin K) ℝ → Matrix (Fin K) (Fin Q) ℝ) (h : HRIRs) (isMin : Bool)
    (lims : ℝ × ℝ) (w : List ℝ) :
    (w.length ≠ h.azi.length → hrirsCtf minPhase pinv h isMin lims (some w) = .error .assertionError) ∧
    (w.length = h.azi.length → h.left.cols = 0 → hrirsCtf minPhase pinv h isMin lims (some w) = .error .valueError) ∧
    (w.length = h.azi.length → 2 ≤ h.left.cols → 0 < h.fs → 1000 * (16 * h.left.cols) < 4.5 * h.fs →
      hrirsCtf minPhase pinv h isMin lims (some w) = .ok none) := by
  refine ⟨fun h1 => ?_, fun h1 h2 => ?_, fun h1 h2 hfs hlow => ?_⟩
  · simp only [hrirsCtf, ctfWith]; rw [if_pos h1]
  · simp only [hrirsCtf, ctfWith]; rw [if_neg (not_not.2 h1), if_pos h2]
  · obtain ⟨lo, hlo⟩ := nearest_exists (16 * h.left.cols) h.fs lims.1
    obtain ⟨hi, hhi⟩ := nearest_exists (16 * h.left.cols) h.fs lims.2
    obtain ⟨i, hk⟩ := nearest_exists (16 * h.left.cols) h.fs 1000
    have hn : (0 : ℝ) < (16 * h.left.cols : ℕ) := by exact_mod_cast (by omega)
    have hi5 : i < 5 := by
      by_contra hge
      push Not at hge
      have := hk.2.2 4 (by omega)
      have e : (5 : ℝ) * h.fs / (16 * h.left.cols : ℕ) ≤ i * h.fs / (16 * h.left.cols : ℕ) := by
        apply div_le_div_of_nonneg_right _ hn.le
        exact mul_le_mul_of_nonneg_right (by exact_mod_cast hge) hfs.le
      have hx : 1000 < 4.5 * h.fs / (16 * h.left.cols : ℕ) := by
        rw [lt_div_iff₀ hn]; push_cast; exact hlow
      have e4 : ((4 : ℕ) : ℝ) * h.fs / (16 * h.left.cols : ℕ) = 4.5 * h.fs / (16 * h.left.cols : ℕ) - 0.5 * h.fs / (16 * h.left.cols : ℕ) := by push_cast; ring
      have e5 : (5 : ℝ) * h.fs / (16 * h.left.cols : ℕ) = 4.5 * h.fs / (16 * h.left.cols : ℕ) + 0.5 * h.fs / (16 * h.left.cols : ℕ) := by ring
      have hd : 0 < 0.5 * h.fs / (16 * h.left.cols : ℕ) := by positivity
      rw [e4] at this
      rw [e5] at e
      rw [abs_of_pos (by linarith), lt_abs] at this
      rcases this with h' | h' <;> linarith
    simp only [hrirsCtf, ctfWith]
    rw [if_neg (not_not.2 h1), if_neg (by omega)]
    simp only [magCut_nearest hlo, magCut_nearest hhi, magCut_nearest hk, Except.bind, Except.map]
    rw [show ctfNorm (ctfSmooth (ctfAvg h.left.cols w h.left) (ctfAvg h.left.cols w h.right)) i = none from ?_]
    · rfl
    · unfold ctfNorm
      rw [if_pos]
      have hlen : (ctfSmooth (ctfAvg h.left.cols w h.left) (ctfAvg h.left.cols w h.right)).length = 8 * h.left.cols + 1 := by
        rw [ctfSmooth_length _ _ (by simp [avg_length]), avg_length]
      simp only [pySlice, sliceBound, List.length_drop, List.length_take, hlen]
      rw [if_neg (by omega), if_pos (by omega)]
      omega

/-- C90, the default weights: the first row of the pseudo-inverse of the spherical harmonics up to order five, times `√(4π)`. -/
theorem C90_default (minPhase : List ℝ → List ℝ) (pinv : (Q K : ℕ) → Matrix (Fin Q) (Fin K) ℝ → Matrix (Fin K) (Fin Q) ℝ)
    (h : HRIRs) (isMin : Bool) (lims : ℝ × ℝ) :
    hrirsCtf minPhase pinv h isMin lims none = hrirsCtf minPhase pinv h isMin lims (some (List.ofFn fun g =>
      √(4 * π) * pinv _ _ (Matrix.of fun (g : Fin h.azi.length) (q : Fin 36) => Sph.realSH (Sph.acnOrder q) (Sph.acnDegree q) (h.azi.getD g 0) (h.zen.getD g 0)) 0 g)) :=
  rfl

/-- The hypotheses of `C90_flat` are met: two directions, impulses of 32 samples. -/
example : ∃ (h : HRIRs) (w : List ℝ) (Al Ar : ℕ → ℝ) (i1k : ℕ), w.length = h.azi.length ∧ h.left.rows.length = h.azi.length ∧
    h.right.rows.length = h.azi.length ∧ FlatEar h.left.cols h.left.rows Al ∧ FlatEar h.left.cols h.right.rows Ar ∧
    0 < ∑ g ∈ Finset.range w.length, w.getD g 0 * Al g ^ 2 ∧ NearestBin (16 * h.left.cols) h.fs 1000 i1k ∧ 5 ≤ i1k ∧ i1k + 4 ≤ 8 * h.left.cols := by
  have hflat : ∀ τ A, τ < 32 → FlatEar 32 (List.replicate 2 ((List.replicate 32 0).set τ A)) (fun _ => |A|) := by
    intro τ A hτ g hg k hk
    have := hrtf_delay (16 * 32) 32 τ A hτ (by norm_num) ⟨32, List.replicate 2 ((List.replicate 32 0).set τ A)⟩ g
      (by rw [List.getElem?_replicate, if_pos (by simpa using hg)]) k
    unfold hrtf Parsa.dft at this
    rw [this, norm_delayBin]
  refine ⟨⟨⟨32, List.replicate 2 ((List.replicate 32 0).set 3 2)⟩, ⟨32, List.replicate 2 ((List.replicate 32 0).set 5 (-1))⟩, [0, 1], [1, 1], 51200, 2, 32⟩,
    [6, 6], fun _ => |2|, fun _ => |(-1)|, 10, rfl, rfl, rfl, hflat 3 2 (by norm_num), hflat 5 (-1) (by norm_num), ?_, ⟨by norm_num, ?_, ?_⟩, by norm_num, by norm_num⟩
  · norm_num [Finset.sum_range_succ]
  · intro k _
    norm_num
  · intro k hk
    have : (k : ℝ) ≤ 9 := by exact_mod_cast (by omega : k ≤ 9)
    norm_num
    intro h0
    linarith

end Verif.Props
