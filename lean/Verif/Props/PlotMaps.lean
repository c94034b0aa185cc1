import Verif.Model.PlotMaps
import Verif.Props.ShRotation
import Verif.Props.ModalWeights
import Verif.Props.AmbiDecoders
import Mathlib.Tactic

/-!
C119 (`plot.sh_rms_map`), C120 (`plot.doa`), C121 (`plot.spherical_function_map`), C122 (`plot.hrirs_ild_itd`).
-/

namespace Verif.Props
open Real Verif.Plot Verif.Utils Verif.Sph

/-! ### C119 -/

theorem memBlock_pos : 0 < memBlock := by decide

theorem blockStarts_eq (S start : ℕ) : blockStarts S start = (List.range ((S - start) / memBlock)).map fun i => start + i * memBlock := by
  have hM := memBlock_pos
  induction h : S - start using Nat.strong_induction_on generalizing start with
  | _ d ih =>
    rw [blockStarts]
    by_cases hs : start + memBlock ≤ S
    · rw [dif_pos hs, ih (S - (start + memBlock)) (by omega) (start + memBlock) rfl]
      have e : d / memBlock = (S - (start + memBlock)) / memBlock + 1 := by
        rw [show d = (S - (start + memBlock)) + memBlock by omega, Nat.add_div_right _ hM]
      rw [e, List.range_succ_eq_map, List.map_cons, List.map_map]
      refine congrArg₂ List.cons (by simp) ?_
      · refine List.map_congr_left fun i _ => ?_
        simp only [Function.comp_apply, Nat.succ_eq_add_one]
        ring
    · rw [dif_neg hs, Nat.div_eq_of_lt (by omega)]; rfl

theorem sum_map_range_eq (n : ℕ) (f : ℕ → ℝ) : ((List.range n).map f).sum = ∑ t ∈ Finset.range n, f t := by
  rw [Finset.sum_range, ← List.sum_ofFn, List.ofFn_eq_map, ← List.map_coe_finRange_eq_range, List.map_map]; rfl

theorem rmsRange_eq (f : ℕ → ℝ) (start len : ℕ) : rmsRange f start len = √((∑ t ∈ Finset.range len, f (start + t) ^ 2) / len) := by
  unfold rmsRange rms
  rw [abs_of_nonneg (Real.sqrt_nonneg _), List.map_map, sum_map_range_eq]
  simp only [List.length_map, List.length_range, Function.comp_apply, sq]

theorem rmsRange_sq (f : ℕ → ℝ) (start len : ℕ) : rmsRange f start len ^ 2 = (∑ t ∈ Finset.range len, f (start + t) ^ 2) / len := by
  rw [rmsRange_eq, Real.sq_sqrt]
  exact div_nonneg (Finset.sum_nonneg fun _ _ => sq_nonneg _) (Nat.cast_nonneg _)

/-- The number of samples that count: all up to 65536, whole blocks of 65536 above. -/
def usedSamples (S : ℕ) : ℕ := if S ≤ 65536 then S else S / 65536 * 65536

/-- The value of a direction is the root mean square of the first `usedSamples S` samples. -/
theorem rmsValue_eq (f : ℕ → ℝ) (S : ℕ) : rmsValue f S = √((∑ t ∈ Finset.range (usedSamples S), f t ^ 2) / usedSamples S) := by
  have hM : memBlock = 65536 := by decide
  have hu : usedSamples S = if S ≤ memBlock then S else S / memBlock * memBlock := by rw [hM]; rfl
  rw [hu]
  clear hu hM
  unfold rmsValue
  by_cases hS : S > memBlock
  · rw [if_pos hS, if_neg (by omega)]
    simp only
    rw [blockStarts_eq, List.map_map, List.map_map]
    simp only [Nat.sub_zero, List.length_map, List.length_range, zero_add]
    rw [sum_map_range_eq]
    simp only [Function.comp_apply, rmsRange_sq]
    rw [← Finset.sum_div, div_div]
    clear hS
    generalize memBlock = M
    generalize S / M = B
    refine congrArg Real.sqrt (congrArg₂ (· / ·) ?_ ?_)
    · clear S
      induction B with
      | zero => simp
      | succ B ih => rw [Finset.sum_range_succ, ih, Nat.succ_mul, Finset.sum_range_add]
    · push_cast; ring
  · rw [if_neg hS, if_pos (by omega), rmsRange_eq]
    simp

/-- C119: as long as the signal has at most 65536 samples or a multiple of it, the drawn value is the root mean square of the whole beamformer signal.
Missing: other lengths, see `C119_tail_fails`. -/
theorem C119_rms_partial (f : ℕ → ℝ) (S : ℕ) (hS : S ≤ 65536 ∨ 65536 ∣ S) : rmsValue f S = √((∑ t ∈ Finset.range S, f t ^ 2) / S) := by
  have : usedSamples S = S := by
    unfold usedSamples
    split
    · rfl
    · exact Nat.div_mul_cancel (hS.resolve_left ‹_›)
  rw [rmsValue_eq, this]

/-- `C119_rms_partial` for three samples. -/
example : rmsValue (fun t => ((t : ℕ) : ℝ)) 3 = √(5 / 3) := by
  rw [C119_rms_partial _ 3 (.inl (by norm_num))]
  norm_num [Finset.sum_range_succ]

/-- C119: for every length above 65536 that is no multiple, a signal that sounds in its last sample only is drawn as silence. -/
theorem C119_tail_fails (S : ℕ) (hS : 65536 < S) (hd : ¬ 65536 ∣ S) :
    rmsValue (fun t => if t = S - 1 then 1 else 0) S = 0 ∧ 0 < √((∑ t ∈ Finset.range S, (if t = S - 1 then (1 : ℝ) else 0) ^ 2) / S) := by
  constructor
  · rw [rmsValue_eq]
    have hlt : usedSamples S ≤ S - 1 := by
      unfold usedSamples
      rw [if_neg (by omega)]
      have h1 := Nat.div_add_mod S 65536
      have h2 : S % 65536 ≠ 0 := fun h => hd (Nat.dvd_of_mod_eq_zero h)
      omega
    rw [Finset.sum_eq_zero, zero_div, Real.sqrt_zero]
    intro t ht
    rw [Finset.mem_range] at ht
    rw [if_neg (by omega)]; norm_num
  · apply Real.sqrt_pos.2
    have hpos : (0 : ℝ) < S := by exact_mod_cast (by omega : 0 < S)
    apply div_pos _ hpos
    refine Finset.sum_pos' (fun _ _ => sq_nonneg _) ⟨S - 1, Finset.mem_range.2 (by omega), ?_⟩
    simp

example : (65536 < 65537) ∧ ¬ 65536 ∣ 65537 := by decide

theorem hyper_length (N : ℕ) : (hypercardioidWeights N).length = N + 1 := by simp [hypercardioidWeights]

theorem acnOrder_le (N : ℕ) (q : Fin ((N + 1) ^ 2)) : acnOrder q ≤ N := by
  unfold acnOrder
  have h : Nat.sqrt q < N + 1 := by
    rw [Nat.sqrt_lt']
    exact q.2
  omega

theorem hyper_getD (N n : ℕ) (hn : n ≤ N) : (hypercardioidWeights N).getD n 0 = (4 * π) / (N + 1) ^ 2 := by
  unfold hypercardioidWeights
  rw [List.getD_eq_getElem?_getD, List.getElem?_replicate, if_pos (by omega)]
  rfl

/-- The beamformer with the default weights for a source: its signal times `4π/(N+1)²` times the product of the two rows. -/
theorem beam_source (N : ℕ) (a z a0 z0 : ℝ) (s : ℕ → ℝ) (t : ℕ) :
    beamSignal N (hypercardioidWeights N) (fun q t => shVec N a0 z0 q * s t) a z t
      = (4 * π) / (N + 1) ^ 2 * (shVec N a z ⬝ᵥ shVec N a0 z0) * s t := by
  unfold beamSignal dotProduct
  rw [Finset.mul_sum, Finset.sum_mul]
  refine Finset.sum_congr rfl fun q _ => ?_
  unfold repVec
  simp only
  rw [hyper_getD N _ (acnOrder_le N q)]
  ring

/-- The gain of the default beamformer is one in the direction of the source and at most one in every other. -/
theorem beam_gain (N : ℕ) (a z a0 z0 : ℝ) (hz : z ∈ Set.Icc 0 π) (hz0 : z0 ∈ Set.Icc 0 π) :
    |(4 * π) / (N + 1) ^ 2 * (shVec N a z ⬝ᵥ shVec N a0 z0)| ≤ 1 ∧ (4 * π) / (N + 1) ^ 2 * (shVec N a0 z0 ⬝ᵥ shVec N a0 z0) = 1 := by
  have hp := pi_pos
  have hN : (0 : ℝ) < ((N : ℝ) + 1) ^ 2 := by positivity
  constructor
  · have h1 := C18_row_norm N a z hz
    have h2 := C18_row_norm N a0 z0 hz0
    have cs : (shVec N a z ⬝ᵥ shVec N a0 z0) ^ 2 ≤ (((N : ℝ) + 1) ^ 2 / (4 * π)) ^ 2 := by
      have := Finset.sum_mul_sq_le_sq_mul_sq Finset.univ (shVec N a z) (shVec N a0 z0)
      unfold dotProduct at h1 h2 ⊢
      simp only [← sq] at h1 h2
      rw [h1, h2] at this
      rw [sq (((N : ℝ) + 1) ^ 2 / (4 * π))]
      exact this
    have := abs_le_of_sq_le_sq cs (by positivity)
    rw [abs_mul, abs_of_pos (by positivity : (0 : ℝ) < 4 * π / ((N : ℝ) + 1) ^ 2)]
    calc 4 * π / ((N : ℝ) + 1) ^ 2 * |shVec N a z ⬝ᵥ shVec N a0 z0|
        ≤ 4 * π / ((N : ℝ) + 1) ^ 2 * (((N : ℝ) + 1) ^ 2 / (4 * π)) := mul_le_mul_of_nonneg_left (this) (by positivity)
      _ = 1 := by field_simp
  · rw [C18_row_norm N a0 z0 hz0]; field_simp

theorem rmsValue_scale (f : ℕ → ℝ) (g : ℝ) (S : ℕ) : rmsValue (fun t => g * f t) S = |g| * rmsValue f S := by
  rw [rmsValue_eq, rmsValue_eq]
  simp only [mul_pow]
  rw [← Finset.mul_sum, mul_div_assoc, Real.sqrt_mul (sq_nonneg g), Real.sqrt_sq_eq_abs]

/-- The source-encoded signal of order `N` (`sph.src_to_sh`, one source). -/
noncomputable def encoded (N : ℕ) (a0 z0 : ℝ) (s : ℕ → ℝ) : Fin ((N + 1) ^ 2) → ℕ → ℝ := fun q t => shVec N a0 z0 q * s t

theorem shOrder_square (N : ℕ) : (shOrder ((N + 1) ^ 2)).toNat = N := by
  have h1 := (shOrder_ge ((N + 1) ^ 2) N).2 le_rfl
  have h2 : ¬ ((N + 1 : ℕ) : ℤ) ≤ shOrder ((N + 1) ^ 2) := by
    rw [shOrder_ge]
    have : (N + 1) ^ 2 < (N + 1 + 1) ^ 2 := Nat.pow_lt_pow_left (by omega) (by norm_num)
    omega
  push_cast at h2
  omega

/-- C119: the map of an `(N+1)²`-channel signal shows, for the directions of the design and the poles, the RMS of the beamformer, in dB if asked. -/
theorem C119_map (def0 : Option ℝ × Option ℝ) (design : List (ℝ × ℝ)) (N : ℕ) (F : Fin ((N + 1) ^ 2) → ℕ → ℝ) (S : ℕ) (todb : Bool) (w : Option (List ℝ))
    (clim : Clim) (r : RmsMap) (h : shRmsMap def0 design F S todb w clim = .ok r) :
    r.points = design ++ [(π, 0), (0, 0), (-π, 0), (π, π), (0, π), (-π, π)] ∧ r.values = r.points.map fun p =>
      let v := rmsValue (beamSignal N (w.getD (hypercardioidWeights N)) F p.1 p.2) S
      if todb then 20 * logb 10 |v| else v := by
  unfold shRmsMap at h
  rw [shOrder_square] at h
  unfold shRmsMapOrder at h
  rw [dif_pos rfl] at h
  simp only at h
  split at h
  · cases hc : colorLimits def0 todb clim with
    | error e => rw [hc] at h; cases h
    | ok c =>
      rw [hc] at h
      obtain rfl := Except.ok.inj h
      refine ⟨rfl, ?_⟩
      cases todb
      · rfl
      · simp [List.map_map, Function.comp_def, db]
  · cases h

/-- `C119_map` for a first-order signal and one direction. -/
example (F : Fin ((1 + 1) ^ 2) → ℕ → ℝ) : ∃ r, shRmsMap (none, none) [(1, 1)] F 3 false none .default = .ok r ∧ r.points.length = 7 := by
  have h : ∃ r, shRmsMap (none, none) [(1, 1)] F 3 false none .default = .ok r := by
    unfold shRmsMap
    rw [shOrder_square]
    unfold shRmsMapOrder
    simp only [dif_pos trivial, Option.getD_none, if_pos (hyper_length 1)]
    exact ⟨_, rfl⟩
  obtain ⟨r, h⟩ := h
  exact ⟨r, h, by rw [(C119_map (none, none) [(1, 1)] 1 F 3 false none .default r h).1]; rfl⟩

/-- C119: the values of the map written out: the RMS over time of the sum over all channels of harmonic, weight of its order and channel signal.
Missing: lengths above 65536 that are no multiple, see `C119_tail_fails`. -/
theorem C119_values_partial (def0 : Option ℝ × Option ℝ) (design : List (ℝ × ℝ)) (N : ℕ) (F : Fin ((N + 1) ^ 2) → ℕ → ℝ) (S : ℕ) (hS : S ≤ 65536 ∨ 65536 ∣ S)
    (w : List ℝ) (clim : Clim) (todb : Bool) (r : RmsMap) (h : shRmsMap def0 design F S todb (some w) clim = .ok r) :
    ∀ (i : ℕ) (hi : i < r.points.length), ∃ v : ℝ,
      v = √((∑ t ∈ Finset.range S, (∑ q : Fin ((N + 1) ^ 2), realSH (acnOrder q) (acnDegree q) (r.points[i]).1 (r.points[i]).2 * w.getD (acnOrder q) 0 * F q t) ^ 2) / S) ∧
      r.values[i]? = some (if todb then 20 * logb 10 v else v) := by
  obtain ⟨hp, hv⟩ := C119_map def0 design N F S todb (some w) clim r h
  intro i hi
  refine ⟨_, rfl, ?_⟩
  rw [hv, List.getElem?_map, List.getElem?_eq_getElem hi, Option.map_some]
  simp only [Option.getD_some, C119_rms_partial _ S hS]
  congr 1
  cases todb
  · rfl
  · simp only [if_true]
    rw [abs_of_nonneg (sqrt_nonneg _)]
    rfl

/-- C119: a source encoded at `(a0, z0)` (zenith between 0 and π, points of the design likewise), default beamformer: no value exceeds the RMS of the source
signal, and a point in the direction of the source has exactly this value.  The signal is one `C119_rms_partial` covers. -/
theorem C119_source_partial (def0 : Option ℝ × Option ℝ) (design : List (ℝ × ℝ)) (hd : ∀ p ∈ design, p.2 ∈ Set.Icc 0 π) (N : ℕ) (a0 z0 : ℝ)
    (hz0 : z0 ∈ Set.Icc 0 π) (s : ℕ → ℝ) (S : ℕ) (hS : S ≤ 65536 ∨ 65536 ∣ S) (clim : Clim) (r : RmsMap)
    (h : shRmsMap def0 design (encoded N a0 z0 s) S false none clim = .ok r) :
    (∀ v ∈ r.values, 0 ≤ v ∧ v ≤ √((∑ t ∈ Finset.range S, s t ^ 2) / S)) ∧
      (∀ (i : ℕ) (hi : i < r.points.length) (hv : i < r.values.length), r.points[i] = (a0, z0) → r.values[i] = √((∑ t ∈ Finset.range S, s t ^ 2) / S)) := by
  obtain ⟨hp, hv⟩ := C119_map def0 design N _ S false none clim r h
  have key : ∀ a z, rmsValue (beamSignal N (hypercardioidWeights N) (encoded N a0 z0 s) a z) S
      = |(4 * π) / (N + 1) ^ 2 * (shVec N a z ⬝ᵥ shVec N a0 z0)| * √((∑ t ∈ Finset.range S, s t ^ 2) / S) := by
    intro a z
    rw [← C119_rms_partial s S hS, ← rmsValue_scale]
    congr 1
    funext t
    exact beam_source N a z a0 z0 s t
  have hzen : ∀ p ∈ rmsPoints design, p.2 ∈ Set.Icc 0 π := by
    intro p hp
    unfold rmsPoints at hp
    rcases List.mem_append.1 hp with hp | hp
    · exact hd p hp
    · have := pi_pos.le
      simp only [List.mem_cons, List.not_mem_nil, or_false] at hp
      rcases hp with rfl | rfl | rfl | rfl | rfl | rfl <;> simp [this]
  simp only [Bool.false_eq_true, if_false, Option.getD_none, key] at hv
  constructor
  · intro v hmem
    rw [hv] at hmem
    obtain ⟨p, hpm, rfl⟩ := List.mem_map.1 hmem
    refine ⟨by positivity, ?_⟩
    exact mul_le_of_le_one_left (Real.sqrt_nonneg _) (beam_gain N p.1 p.2 a0 z0 (hzen p (by rw [hp] at hpm; exact hpm)) hz0).1
  · intro i hi hiv he
    simp only [hv, List.getElem_map]
    rw [he]
    simp only
    rw [(beam_gain N a0 z0 a0 z0 hz0 hz0).2, abs_one, one_mul]

/-- C119: other numbers of channels than `(N+1)²`, and a wrong number of weights, are rejected. -/
theorem C119_errors (def0 : Option ℝ × Option ℝ) (design : List (ℝ × ℝ)) (S : ℕ) (todb : Bool) (clim : Clim) :
    (∀ (K : ℕ) (F : Fin K → ℕ → ℝ) (w : Option (List ℝ)), (∀ n : ℕ, K ≠ n ^ 2) → shRmsMap def0 design F S todb w clim = .error .valueError) ∧
      (∀ (N : ℕ) (F : Fin ((N + 1) ^ 2) → ℕ → ℝ) (w : List ℝ), w.length ≠ N + 1 → shRmsMap def0 design F S todb (some w) clim = .error .valueError) := by
  constructor
  · intro K F w hK
    unfold shRmsMap shRmsMapOrder
    rw [dif_neg (hK _)]
  · intro N F w hw
    unfold shRmsMap
    rw [shOrder_square]
    unfold shRmsMapOrder
    rw [dif_pos rfl]
    simp only [Option.getD_some]
    rw [if_neg hw]

/-- C119: with a list or a fully given tuple the map is drawn; the result does not depend on earlier calls and leaves the default alone. -/
theorem C119_given_limits (def0 : Option ℝ × Option ℝ) (design : List (ℝ × ℝ)) (N : ℕ) (F : Fin ((N + 1) ^ 2) → ℕ → ℝ) (S : ℕ) (todb : Bool)
    (w : Option (List ℝ)) (hw : ∀ l, w = some l → l.length = N + 1) (lo hi : Option ℝ) :
    ∃ r, shRmsMap def0 design F S todb w (.list lo hi) = .ok r ∧ r.vmax = hi ∧ r.defaultClim = def0 ∧
      r.vmin = (match lo with | some l => some l | none => if todb then none else some 0) ∧
      (∀ l : ℝ, ∃ r', shRmsMap def0 design F S todb w (.tuple (some l) hi) = .ok r' ∧ r'.vmin = some l ∧ r'.vmax = hi ∧ r'.defaultClim = def0 ∧ r'.values = r.values) ∧
      shRmsMap def0 design F S todb w (.tuple none hi) = .error .typeError := by
  have hl : (w.getD (hypercardioidWeights N)).length = N + 1 := by
    cases w with
    | none => exact hyper_length N
    | some l => exact hw l rfl
  have key : ∀ clim, shRmsMap def0 design F S todb w clim = shRmsMapOrder N def0 design F S todb w clim := by
    intro clim
    unfold shRmsMap
    rw [shOrder_square]
  simp only [key]
  unfold shRmsMapOrder
  simp only [dif_pos trivial, if_pos hl]
  refine ⟨_, rfl, rfl, rfl, ?_, fun l => ⟨_, rfl, rfl, rfl, rfl, rfl⟩, rfl⟩
  cases lo <;> rfl

/-- C119: without limits, a linear map changes the default of every later call: the same dB map gets the lower colour limit 0 dB after it, none before it;
and a list `[None, None]` of the caller comes back as `[0, None]`. -/
theorem C119_default_fails (design : List (ℝ × ℝ)) (N : ℕ) (F : Fin ((N + 1) ^ 2) → ℕ → ℝ) (S : ℕ) :
    ∃ first second fresh mine, shRmsMap (none, none) design F S false none .default = .ok first ∧
      shRmsMap first.defaultClim design F S true none .default = .ok second ∧ shRmsMap (none, none) design F S true none .default = .ok fresh ∧
      second.vmin = some 0 ∧ fresh.vmin = none ∧
      shRmsMap (none, none) design F S false none (.list none none) = .ok mine ∧ mine.callerClim = some (some 0, none) := by
  have key : ∀ d b clim, shRmsMap d design F S b none clim = shRmsMapOrder N d design F S b none clim := by
    intro d b clim
    unfold shRmsMap
    rw [shOrder_square]
  simp only [key]
  unfold shRmsMapOrder
  simp only [dif_pos trivial, Option.getD_none, if_pos (hyper_length N)]
  exact ⟨_, _, _, _, rfl, rfl, rfl, rfl, rfl, rfl, rfl⟩

/-- The default colour limits after a sequence of maps drawn without limits, `true` for dB. -/
noncomputable def defaultAfter (design : List (ℝ × ℝ)) (N : ℕ) (F : Fin ((N + 1) ^ 2) → ℕ → ℝ) (S : ℕ) (calls : List Bool) : Py (Option ℝ × Option ℝ) :=
  calls.foldlM (fun d b => (shRmsMap d design F S b none .default).map fun r => r.defaultClim) (none, none)

/-- C119: after any sequence of maps without limits, the default lower limit is 0 exactly when one of them was linear, and then every later dB map gets it. -/
theorem C119_sequence_fails (design : List (ℝ × ℝ)) (N : ℕ) (F : Fin ((N + 1) ^ 2) → ℕ → ℝ) (S : ℕ) (calls : List Bool) :
    ∃ d r, defaultAfter design N F S calls = .ok d ∧ d = (if false ∈ calls then some 0 else none, none) ∧
      shRmsMap d design F S true none .default = .ok r ∧ r.vmin = (if false ∈ calls then some 0 else none) ∧ r.vmax = none := by
  have key : ∀ d b, ∃ r, shRmsMap d design F S b none .default = .ok r ∧ r.defaultClim = (climLow b d.1, d.2) ∧ r.vmin = climLow b d.1 ∧ r.vmax = d.2 := by
    intro d b
    unfold shRmsMap
    rw [shOrder_square]
    unfold shRmsMapOrder
    simp only [dif_pos trivial, Option.getD_none, if_pos (hyper_length N)]
    exact ⟨_, rfl, rfl, rfl, rfl⟩
  have main : ∀ (calls : List Bool) (d0 : Option ℝ), (d0 = none ∨ d0 = some 0) →
      calls.foldlM (fun d b => (shRmsMap d design F S b none .default).map fun r => r.defaultClim) (d0, (none : Option ℝ))
        = .ok (if false ∈ calls ∨ d0 = some 0 then some 0 else none, none) := by
    intro calls
    induction calls with
    | nil =>
      rintro d0 (rfl | rfl)
      · simp [pure, Except.pure]
      · simp [pure, Except.pure]
    | cons b l ih =>
      intro d0 hd
      obtain ⟨r, h1, h2, -⟩ := key (d0, none) b
      rw [List.foldlM_cons, h1]
      change List.foldlM _ r.defaultClim l = _
      rw [h2]
      have hc : climLow b d0 = if b = false ∨ d0 = some 0 then some 0 else none := by
        rcases hd with rfl | rfl <;> cases b <;> simp [climLow]
      rw [ih (climLow b d0) (by rw [hc]; split <;> simp), hc]
      congr 2
      cases b <;> simp
  obtain ⟨r, h1, -, h3, h4⟩ := key (if false ∈ calls then some 0 else none, none) true
  refine ⟨_, r, by unfold defaultAfter; rw [main calls none (Or.inl rfl)], by simp, ?_, ?_, h4⟩
  · simpa using h1
  · rw [h3]; split <;> simp [climLow]

/-- Linear, dB, dB: still 0. -/
example : ∃ d, defaultAfter [(1, 1)] 0 (fun _ t => (t : ℝ)) 3 [false, true, true] = .ok d ∧ d.1 = some 0 := by
  obtain ⟨d, -, h, hd, -⟩ := C119_sequence_fails [(1, 1)] 0 (fun _ t => (t : ℝ)) 3 [false, true, true]
  exact ⟨d, h, by rw [hd]; simp⟩

/-- Hypotheses of `C119_values_partial`. -/
example : (3 ≤ 65536 ∨ 65536 ∣ 3) ∧ ∃ r, shRmsMap (none, none) [(1, 1)] (encoded 1 0 0 fun t => (t : ℝ)) 3 true (some [1, 1 / 2]) (.list none none) = .ok r := by
  obtain ⟨r, h, _⟩ := C119_given_limits (none, none) [(1, 1)] 1 (encoded 1 0 0 fun t => (t : ℝ)) 3 true (some [1, 1 / 2]) (by rintro l ⟨⟩; rfl) none none
  exact ⟨.inl (by norm_num), r, h⟩

/-- A source at the zenith, first order, 3 samples: the hypotheses of `C119_source_partial` are met and the drawn pole is the source direction. -/
example : ∃ r, shRmsMap (none, none) [(1, 1)] (encoded 1 0 0 fun t => (t : ℝ)) 3 false none .default = .ok r ∧ r.points[2]? = some (0, 0) := by
  unfold shRmsMap
  rw [shOrder_square]
  unfold shRmsMapOrder
  simp only [dif_pos trivial, Option.getD_none, if_pos (hyper_length 1)]
  exact ⟨_, rfl, rfl⟩

/-! ### C120 -/

theorem doaAzimuth_above (azi : ℝ) (h1 : π < azi) (h2 : azi ≤ 2 * π) : doaAzimuth azi = azi - 2 * π := by
  have hp := pi_pos
  unfold doaAzimuth pyMod
  rw [if_pos h1]
  have : ⌊azi / -π⌋ = -2 := by
    rw [Int.floor_eq_iff, div_neg]
    push_cast
    constructor
    · have : azi / π ≤ 2 := by rw [div_le_iff₀ hp]; linarith
      linarith
    · have : 1 < azi / π := by rw [lt_div_iff₀ hp]; linarith
      linarith
  rw [this]; push_cast; ring

/-- C120: azimuths from -π to 2π are drawn inside [-π, π], in the same direction.  Missing: other azimuths, see `C120_azimuth_fails`. -/
theorem C120_azimuth_partial (azi : ℝ) (h1 : -π ≤ azi) (h2 : azi ≤ 2 * π) :
    doaAzimuth azi ∈ Set.Icc (-π) π ∧ cos (doaAzimuth azi) = cos azi ∧ sin (doaAzimuth azi) = sin azi := by
  have hp := pi_pos
  by_cases h : π < azi
  · rw [doaAzimuth_above azi h h2]
    exact ⟨⟨by linarith, by linarith⟩, cos_sub_two_pi azi, sin_sub_two_pi azi⟩
  · unfold doaAzimuth
    rw [if_neg h]
    exact ⟨⟨h1, not_lt.1 h⟩, rfl, rfl⟩

/-- `C120_azimuth_partial` for a direction on the right given as 3π/2. -/
example : doaAzimuth (3 * π / 2) ∈ Set.Icc (-π) π ∧ cos (doaAzimuth (3 * π / 2)) = cos (3 * π / 2) ∧ sin (doaAzimuth (3 * π / 2)) = sin (3 * π / 2) :=
  C120_azimuth_partial _ (by linarith [pi_pos]) (by linarith [pi_pos])

/-- C120: every azimuth strictly between 2π and 3π is drawn on the opposite side, every azimuth below -π stays outside of the axes. -/
theorem C120_azimuth_fails (azi : ℝ) : (2 * π < azi → azi ≤ 3 * π → cos (doaAzimuth azi) = -cos azi ∧ sin (doaAzimuth azi) = -sin azi) ∧
    (azi < -π → doaAzimuth azi = azi) := by
  have hp := pi_pos
  constructor
  · intro h1 h2
    have : doaAzimuth azi = azi - 3 * π := by
      unfold doaAzimuth pyMod
      rw [if_pos (by linarith)]
      have : ⌊azi / -π⌋ = -3 := by
        rw [Int.floor_eq_iff, div_neg]
        push_cast
        constructor
        · have : azi / π ≤ 3 := by rw [div_le_iff₀ hp]; linarith
          linarith
        · have : 2 < azi / π := by rw [lt_div_iff₀ hp]; linarith
          linarith
      rw [this]; push_cast; ring
    rw [this, show azi - 3 * π = azi - π - 2 * π by ring, cos_sub_two_pi, sin_sub_two_pi, cos_sub_pi, sin_sub_pi]
    exact ⟨rfl, rfl⟩
  · intro h
    unfold doaAzimuth
    rw [if_neg (by linarith)]

/-- C120: the points are drawn from the last to the first, so that the first lies on top; sizes without pressure are `size`, colours without sampling rate are
one.  The array of the caller is left with the drawn azimuths. -/
theorem C120_points (azi zen : List ℝ) (hz : zen.length = azi.length) (size : ℝ) (fs : Option ℝ) :
    ∃ pts, doa azi zen none size none fs = .ok (pts, azi.map doaAzimuth) ∧ pts.length = azi.length ∧
      ∀ (k : ℕ) (hk : k < pts.length) (ha : azi.length - 1 - k < azi.length) (hz : azi.length - 1 - k < zen.length),
        pts[k].azi = doaAzimuth azi[azi.length - 1 - k] ∧ pts[k].zen = zen[azi.length - 1 - k] ∧ pts[k].size = size ∧
        (∀ r, fs = some r → pts[k].color = ((azi.length - 1 - k : ℕ) : ℝ) / r * 1000) ∧ (fs = none → pts[k].color = 1) := by
  have hc : (doaColors none fs azi.length).length = azi.length := by cases fs <;> simp [doaColors]
  have hd : doa azi zen none size none fs = .ok (((List.range azi.length).map fun i =>
      { azi := (azi.map doaAzimuth).getD i 0, zen := zen.getD i 0, size := ((List.replicate azi.length (1 : ℝ)).map (· * size)).getD i 0,
        color := (doaColors none fs azi.length).getD i 0 : DoaPoint }).reverse, azi.map doaAzimuth) := by
    unfold doa doaSizes
    simp only [Except.bind]
    rw [if_pos ⟨hz, by simp, hc⟩]
  refine ⟨_, hd, by simp, ?_⟩
  · intro k hk ha hz'
    have hn : (azi.length : ℝ) ≠ 0 := by exact_mod_cast (by omega : azi.length ≠ 0)
    simp only [List.getElem_reverse, List.getElem_map, List.getElem_range, List.length_map, List.length_range]
    refine ⟨?_, ?_, ?_, ?_, ?_⟩
    · simp [List.getD_eq_getElem?_getD, ha]
    · simp [List.getD_eq_getElem?_getD, hz']
    · simp [List.getD_eq_getElem?_getD, List.getElem?_replicate, ha]
    · rintro r rfl
      simp only [doaColors, List.getD_eq_getElem?_getD, List.getElem?_map, List.getElem?_range ha, Option.map_some, Option.getD_some]
      field_simp
    · rintro rfl
      simp [doaColors, List.getD_eq_getElem?_getD, List.getElem?_replicate, ha]

/-- `C120_points` for two directions. -/
example : ∃ pts, doa [0, 1] [1, 2] none 250 none (some 48000) = .ok (pts, [0, 1].map doaAzimuth) ∧ pts.length = 2 := by
  obtain ⟨pts, h1, h2, -⟩ := C120_points [0, 1] [1, 2] rfl 250 (some 48000)
  exact ⟨pts, h1, h2⟩

theorem foldl_max_spec (l : List ℝ) (x : ℝ) : x ≤ l.foldl max x ∧ (∀ v ∈ l, v ≤ l.foldl max x) ∧ (l.foldl max x = x ∨ l.foldl max x ∈ l) := by
  induction l generalizing x with
  | nil => simp
  | cons y l ih =>
    obtain ⟨h1, h2, h3⟩ := ih (max x y)
    simp only [List.foldl_cons, List.mem_cons]
    refine ⟨(le_max_left _ _).trans h1, ?_, ?_⟩
    · rintro v (rfl | hv)
      · exact (le_max_right _ _).trans h1
      · exact h2 v hv
    · rcases h3 with h3 | h3
      · rcases max_choice x y with h | h
        · left; rw [h3, h]
        · right; left; rw [h3, h]
      · right; right; exact h3

/-- C120: with pressures, the sizes are proportional to the pressure down to the floor 1e-14: the largest pressure `m > 0` has size `size`, none is larger, and
all are positive (for a positive size). -/
theorem C120_sizes (p : List ℝ) (m size : ℝ) (hm : m ∈ p) (hle : ∀ v ∈ p, v ≤ m) (hpos : 0 < m) (hs : 0 < size) (n : ℕ) :
    ∃ s, doaSizes (some p) n size = .ok s ∧ s.length = p.length ∧ ∀ (i : ℕ) (hi : i < p.length) (hi' : i < s.length),
      s[i] ≤ size ∧ 0 < s[i] ∧ (p[i] = m → s[i] = size) ∧ (10e-15 * m ≤ p[i] → s[i] = p[i] / m * size) := by
  cases p with
  | nil => cases hm
  | cons x xs =>
    have e : xs.foldl max x = m := by
      obtain ⟨h1, h2, h3⟩ := foldl_max_spec xs x
      apply le_antisymm
      · rcases h3 with h3 | h3
        · rw [h3]; exact hle x (by simp)
        · exact hle _ (by simp [h3])
      · rcases List.mem_cons.1 hm with rfl | h
        · exact h1
        · exact h2 m h
    refine ⟨_, rfl, by simp, ?_⟩
    intro i hi hi'
    simp only [List.getElem_map, e]
    have hv := hle _ (List.getElem_mem hi)
    have h1 : (x :: xs)[i] / m ≤ 1 := by rw [div_le_one hpos]; exact hv
    have hfl : max ((x :: xs)[i] / m) 10e-15 ≤ 1 := max_le h1 (by norm_num)
    have hfp : 0 < max ((x :: xs)[i] / m) 10e-15 := lt_max_of_lt_right (by norm_num)
    refine ⟨by nlinarith, by positivity, ?_, ?_⟩
    · intro he
      rw [he, div_self hpos.ne', max_eq_left (by norm_num), one_mul]
    · intro hge
      rw [max_eq_left]
      rw [le_div_iff₀ hpos]; exact hge

/-- `C120_sizes` for the weights 1 and 1/2. -/
example : ∃ s, doaSizes (some [1, 1 / 2]) 2 250 = .ok s ∧ s.length = 2 := by
  obtain ⟨s, h1, h2, -⟩ := C120_sizes [1, 1 / 2] 1 250 (by simp) (by intro v hv; fin_cases hv <;> norm_num) one_pos (by norm_num) 2
  exact ⟨s, h1, h2⟩

/-- C120: what is drawn whenever the call succeeds, with pressures and colours too: point `k` from the end belongs to entry `k` of every array. -/
theorem C120_drawn (azi zen : List ℝ) (p c : Option (List ℝ)) (size : ℝ) (fs : Option ℝ) (pts : List DoaPoint) (a : List ℝ)
    (h : doa azi zen p size c fs = .ok (pts, a)) : pts.length = azi.length ∧ zen.length = azi.length ∧ a = azi.map doaAzimuth ∧
    ∀ (i : ℕ) (hi : i < azi.length), ∃ q, pts[azi.length - 1 - i]? = some q ∧ q.azi = doaAzimuth azi[i] ∧ zen[i]? = some q.zen ∧
      (p = none → q.size = size) ∧
      (∀ (l : List ℝ) (m : ℝ), p = some l → m ∈ l → (∀ v ∈ l, v ≤ m) → 0 < m → ∃ v, l[i]? = some v ∧ q.size = max (v / m) 10e-15 * size) ∧
      (∀ l, c = some l → l[i]? = some q.color) ∧ (∀ r, c = none → fs = some r → q.color = i / r * 1000) ∧ (c = none → fs = none → q.color = 1) := by
  unfold doa at h
  cases hs : doaSizes p azi.length size with
  | error e => rw [hs] at h; cases h
  | ok s =>
    rw [hs] at h
    simp only [Except.bind] at h
    by_cases hl : zen.length = azi.length ∧ s.length = azi.length ∧ (doaColors c fs azi.length).length = azi.length
    · rw [if_pos hl] at h
      obtain ⟨rfl, rfl⟩ := Prod.mk.inj (Except.ok.inj h)
      obtain ⟨hz, hsl, hcl⟩ := hl
      refine ⟨by simp, hz, rfl, fun i hi => ?_⟩
      have hiz : i < zen.length := by omega
      have his : i < s.length := by omega
      have hic : i < (doaColors c fs azi.length).length := by omega
      refine ⟨⟨doaAzimuth azi[i], zen[i], s[i], (doaColors c fs azi.length)[i]⟩, ?_, rfl, List.getElem?_eq_getElem hiz, ?_, ?_, ?_, ?_, ?_⟩
      · rw [List.getElem?_reverse (by simp; omega)]
        have e : azi.length - 1 - (azi.length - 1 - i) = i := by omega
        simp only [List.length_map, List.length_range, e, List.getElem?_map, List.getElem?_range hi, Option.map_some, List.getD_eq_getElem?_getD,
          List.getElem?_eq_getElem hi, List.getElem?_eq_getElem hiz, List.getElem?_eq_getElem his, List.getElem?_eq_getElem hic, Option.getD_some]
      · rintro rfl
        obtain rfl := Except.ok.inj hs
        simp
      · rintro l m rfl hm hle hpos
        cases l with
        | nil => cases hm
        | cons x xs =>
          have e : xs.foldl max x = m := by
            obtain ⟨h1, h2, h3⟩ := foldl_max_spec xs x
            apply le_antisymm
            · rcases h3 with h3 | h3
              · rw [h3]; exact hle x (by simp)
              · exact hle _ (by simp [h3])
            · rcases List.mem_cons.1 hm with rfl | h
              · exact h1
              · exact h2 m h
          obtain rfl := Except.ok.inj hs
          have hix : i < (x :: xs).length := by simpa using his
          exact ⟨(x :: xs)[i], List.getElem?_eq_getElem hix, by simp only [List.getElem_map, e]⟩
      · rintro l rfl
        exact List.getElem?_eq_getElem (by simpa [doaColors] using hic)
      · rintro r rfl rfl
        have hn : (azi.length : ℝ) ≠ 0 := by exact_mod_cast (by omega : azi.length ≠ 0)
        simp only [doaColors, List.getElem_map, List.getElem_range]
        field_simp
      · rintro rfl rfl
        simp [doaColors]
    · rw [if_neg hl] at h; cases h

/-- `C120_drawn` for two directions, the second at 3π/2. -/
example : ∃ pts a, doa [0, 3 * π / 2] [1, 2] none 250 none (some 48000) = .ok (pts, a) ∧ ∃ q, pts[0]? = some q ∧ q.azi = doaAzimuth (3 * π / 2) := by
  obtain ⟨pts, h1, -⟩ := C120_points [0, 3 * π / 2] [1, 2] rfl 250 (some 48000)
  obtain ⟨-, -, -, h⟩ := C120_drawn _ _ _ _ _ _ _ _ h1
  obtain ⟨q, h2, h3, -⟩ := h 1 (by simp)
  exact ⟨pts, _, h1, q, h2, h3⟩

/-- C120: arrays of different lengths are rejected, and so is an empty pressure array. -/
theorem C120_errors (azi zen : List ℝ) (size : ℝ) (fs : Option ℝ) :
    (zen.length ≠ azi.length → ∀ p c, doa azi zen p size c fs = .error .valueError) ∧
      (∀ p : List ℝ, p.length ≠ azi.length → ∀ c, doa azi zen (some p) size c fs = .error .valueError) ∧
      (∀ c : List ℝ, c.length ≠ azi.length → ∀ p, doa azi zen p size (some c) fs = .error .valueError) ∧
      ∀ c, doa azi zen (some []) size c fs = .error .valueError := by
  have hcase : ∀ p, (∃ s, doaSizes p azi.length size = .ok s ∧ (∀ l, p = some l → s.length = l.length)) ∨ doaSizes p azi.length size = .error .valueError := by
    intro p
    match p with
    | none => exact .inl ⟨_, rfl, fun l h => by cases h⟩
    | some [] => exact .inr rfl
    | some (x :: xs) => exact .inl ⟨_, rfl, fun l h => by obtain rfl := Option.some.inj h; simp⟩
  refine ⟨fun hz p c => ?_, fun p hp c => ?_, fun c hc p => ?_, fun c => rfl⟩
  · unfold doa
    rcases hcase p with ⟨s, h, -⟩ | h
    · rw [h]; simp only [Except.bind]; rw [if_neg (fun h => hz h.1)]
    · rw [h]; rfl
  · unfold doa
    rcases hcase (some p) with ⟨s, h, hs⟩ | h
    · rw [h]; simp only [Except.bind]; rw [if_neg (fun h => hp ((hs p rfl).symm.trans h.2.1))]
    · rw [h]; rfl
  · unfold doa
    rcases hcase p with ⟨s, h, -⟩ | h
    · rw [h]; simp only [Except.bind]; rw [if_neg (fun h => hc h.2.2)]
    · rw [h]; rfl

/-- C120: the caller's azimuth array changes exactly if one of its values exceeds π: then the plot has a side effect. -/
theorem C120_caller (azi zen : List ℝ) (p c : Option (List ℝ)) (size : ℝ) (fs : Option ℝ) (pts : List DoaPoint) (a : List ℝ)
    (h : doa azi zen p size c fs = .ok (pts, a)) : a = azi ↔ ∀ v ∈ azi, v ≤ π := by
  have ha : a = azi.map doaAzimuth := by
    unfold doa at h
    cases hs : doaSizes p azi.length size with
    | error e => rw [hs] at h; cases h
    | ok s =>
      rw [hs] at h
      simp only [Except.bind] at h
      split at h
      · exact ((Prod.mk.inj (Except.ok.inj h)).2).symm
      · cases h
  have hfix : ∀ v, doaAzimuth v = v ↔ v ≤ π := by
    intro v
    have hp := pi_pos
    constructor
    · intro hv
      by_contra hgt
      rw [not_le] at hgt
      unfold doaAzimuth pyMod at hv
      rw [if_pos hgt] at hv
      have h0 : ⌊v / -π⌋ = 0 := by
        have : -π * (⌊v / -π⌋ : ℝ) = 0 := by linarith
        rcases mul_eq_zero.1 this with h | h
        · linarith
        · exact_mod_cast h
      have := (Int.floor_eq_iff.1 h0).1
      push_cast at this
      have h2 : v / -π < 0 := div_neg_of_pos_of_neg (by linarith) (by linarith)
      linarith
    · intro hv
      unfold doaAzimuth
      rw [if_neg (not_lt.2 hv)]
  rw [ha]
  conv_lhs => rhs; rw [← List.map_id azi]
  rw [List.map_inj_left]
  simp only [id, hfix]

example : ∃ pts, doa [3 * π / 2, 0] [1, 2] (some [1, 1 / 2]) 250 none (some 48000) = .ok (pts, [3 * π / 2, 0].map doaAzimuth) ∧ pts.length = 2 := by
  refine ⟨_, rfl, by simp⟩

/-! ### C121 -/

/-- C121: the drawn points are the given directions, azimuths up to 3π inside of (-π, π] and always in the same direction; values in dB if asked. -/
theorem C121_points (f azi zen : List ℝ) (todb : Bool) (hz : zen.length = azi.length) (hf : f.length = azi.length) :
    (sphericalFunctionMap f azi zen todb).1.length = azi.length ∧
      ∀ (i : ℕ) (h : i < (sphericalFunctionMap f azi zen todb).1.length) (ha : i < azi.length) (hz : i < zen.length) (hf : i < f.length),
        let pt := (sphericalFunctionMap f azi zen todb).1[i]
        cos pt.1 = cos azi[i] ∧ sin pt.1 = sin azi[i] ∧ (-π < azi[i] → azi[i] ≤ 3 * π → pt.1 ∈ Set.Ioc (-π) π) ∧ pt.2.1 = zen[i] ∧
          pt.2.2 = if todb then 20 * logb 10 |f[i]| else f[i] := by
  constructor
  · cases todb <;> simp [sphericalFunctionMap, hz, hf]
  · intro i h ha hz hf
    have hp := pi_pos
    have e : (sphericalFunctionMap f azi zen todb).1[i] = (mapAzimuth azi[i], zen[i], if todb then 20 * logb 10 |f[i]| else f[i]) := by
      cases todb <;> simp [sphericalFunctionMap, db]
    simp only [e]
    refine ⟨?_, ?_, ?_, trivial, trivial⟩
    · unfold mapAzimuth; split
      · exact cos_sub_two_pi _
      · rfl
    · unfold mapAzimuth; split
      · exact sin_sub_two_pi _
      · rfl
    · intro h1 h2
      unfold mapAzimuth; split
      · exact ⟨by linarith, by linarith⟩
      · exact ⟨h1, not_lt.1 ‹_›⟩

/-- `C121_points` for two directions. -/
example : (sphericalFunctionMap [1, -2] [0, 2 * π] [1, 2] true).1.length = 2 := (C121_points [1, -2] [0, 2 * π] [1, 2] true rfl rfl).1

/-- C121: the caller's azimuth array is kept exactly if no azimuth exceeds π; a second plot of the changed array (azimuths up to 3π) draws the same points. -/
theorem C121_caller (f azi zen : List ℝ) (todb : Bool) :
    ((sphericalFunctionMap f azi zen todb).2 = azi ↔ ∀ v ∈ azi, v ≤ π) ∧
      ((∀ v ∈ azi, v ≤ 3 * π) → sphericalFunctionMap f (sphericalFunctionMap f azi zen todb).2 zen todb = sphericalFunctionMap f azi zen todb) := by
  have hp := pi_pos
  constructor
  · change azi.map mapAzimuth = azi ↔ _
    conv_lhs => rhs; rw [← List.map_id azi]
    rw [List.map_inj_left]
    have : ∀ v, mapAzimuth v = id v ↔ v ≤ π := by
      intro v
      unfold mapAzimuth
      split
      · constructor
        · intro h; simp only [id] at h; linarith
        · intro h; linarith
      · exact ⟨fun _ => not_lt.1 ‹_›, fun _ => rfl⟩
    simp only [this]
  · intro h
    have : (azi.map mapAzimuth).map mapAzimuth = azi.map mapAzimuth := by
      rw [List.map_map]
      refine List.map_congr_left fun v hv => ?_
      have := h v hv
      simp only [Function.comp_apply]
      unfold mapAzimuth
      split
      · rw [if_neg (by linarith)]
      · rfl
    simp only [sphericalFunctionMap, this]

/-- C121: concrete plot that changes its argument. -/
theorem C121_caller_fails : (sphericalFunctionMap [1] [3 * π / 2] [1] false).2 ≠ [3 * π / 2] := by
  intro h
  have := ((C121_caller [1] [3 * π / 2] [1] false).1.1 h) (3 * π / 2) (by simp)
  linarith [pi_pos]

/-! ### C122 -/

theorem hrirAzimuth_eq (azi : ℝ) : ∃ k : ℤ, hrirAzimuth azi = azi - k * (2 * π) := ⟨pyInt ((azi + π) / (2 * π)), by unfold hrirAzimuth npFmod; ring⟩

/-- C122: the drawn azimuth always names the same direction, inside of [-π, π) for azimuths from -π on. -/
theorem C122_azimuth (azi : ℝ) : cos (hrirAzimuth azi) = cos azi ∧ sin (hrirAzimuth azi) = sin azi ∧ (-π ≤ azi → hrirAzimuth azi ∈ Set.Ico (-π) π) := by
  have hp := pi_pos
  obtain ⟨k, hk⟩ := hrirAzimuth_eq azi
  refine ⟨by rw [hk]; exact cos_sub_int_mul_two_pi azi k, by rw [hk]; exact sin_sub_int_mul_two_pi azi k, fun h => ?_⟩
  have hq : 0 ≤ (azi + π) / (2 * π) := div_nonneg (by linarith) (by linarith)
  have e : hrirAzimuth azi = (azi + π) - 2 * π * (⌊(azi + π) / (2 * π)⌋ : ℤ) - π := by
    unfold hrirAzimuth npFmod pyInt
    rw [if_pos hq]
  have h1 := Int.floor_le ((azi + π) / (2 * π))
  have h2 := Int.lt_floor_add_one ((azi + π) / (2 * π))
  rw [le_div_iff₀ (by linarith)] at h1
  rw [div_lt_iff₀ (by linarith)] at h2
  rw [e]
  constructor <;> linarith

/-- C122: every azimuth between -3π and -π (both excluded) is drawn as it is, outside of the axis from -π to π. -/
theorem C122_azimuth_fails (azi : ℝ) (h1 : -(3 * π) < azi) (h2 : azi < -π) : hrirAzimuth azi = azi ∧ hrirAzimuth azi ∉ Set.Icc (-π) π := by
  have hp := pi_pos
  have hq : (azi + π) / (2 * π) < 0 := div_neg_of_neg_of_pos (by linarith) (by linarith)
  have hc : ⌈(azi + π) / (2 * π)⌉ = 0 := by
    rw [Int.ceil_eq_iff]
    push_cast
    refine ⟨?_, hq.le⟩
    rw [lt_div_iff₀ (by linarith)]
    linarith
  have e : hrirAzimuth azi = azi := by
    unfold hrirAzimuth npFmod pyInt
    rw [if_neg (not_le.2 hq), hc]
    push_cast; ring
  exact ⟨e, fun h => by rw [e] at h; linarith [h.1]⟩

example : -(3 * π) < -(3 * π / 2) ∧ -(3 * π / 2) < -π := by constructor <;> linarith [pi_pos]

theorem maxAbs_spec (v : List ℝ) (m : ℝ) (h : maxAbs v = .ok m) : (∀ x ∈ v, |x| ≤ m) ∧ ∃ x ∈ v, |x| = m := by
  cases v with
  | nil => cases h
  | cons x xs =>
    obtain rfl := Except.ok.inj h
    obtain ⟨h1, h2, h3⟩ := foldl_max_spec (xs.map fun v => |v|) |x|
    constructor
    · intro y hy
      rcases List.mem_cons.1 hy with rfl | hy
      · exact h1
      · exact h2 _ (List.mem_map_of_mem hy)
    · rcases h3 with h3 | h3
      · exact ⟨x, by simp, h3.symm⟩
      · obtain ⟨y, hy, he⟩ := List.mem_map.1 h3
        exact ⟨y, by simp [hy], he⟩

/-- One map: its points, and limits that are symmetric and, unless given, the largest magnitude. -/
theorem signedMap_spec (azi zen v : List ℝ) (lim : Option ℝ) (m : SignedMap) (h : signedMap azi zen v lim = .ok m) :
    m.points = (azi.map hrirAzimuth).zip (zen.zip v) ∧ m.vmin = -m.vmax ∧ (∀ l, lim = some l → m.vmax = l) ∧
      (lim = none → (∀ x ∈ v, m.vmin ≤ x ∧ x ≤ m.vmax) ∧ ∃ x ∈ v, |x| = m.vmax) := by
  unfold signedMap at h
  cases lim with
  | some l =>
    obtain rfl := Except.ok.inj h
    exact ⟨rfl, rfl, fun _ h => by obtain rfl := Option.some.inj h; rfl, fun h => by cases h⟩
  | none =>
    simp only at h
    cases hm : maxAbs v with
    | error e => rw [hm] at h; cases h
    | ok l =>
      rw [hm] at h
      obtain rfl := Except.ok.inj h
      obtain ⟨h1, h2⟩ := maxAbs_spec v l hm
      exact ⟨rfl, rfl, fun _ h => (by cases h), fun _ => ⟨fun x hx => abs_le.1 (h1 x hx), h2⟩⟩

/-- C122: both maps show the directions of the set, the level differences in dB and the time differences in ms; the colour limits are symmetric, so that zero
is the middle of the scale, and without given limits no value is outside and one reaches the limit. -/
theorem C122_maps (azi zen ilds itds : List ℝ) (pclims : Option ℝ × Option ℝ) (m1 m2 : SignedMap) (hz : zen.length = azi.length)
    (hi : ilds.length = azi.length) (ht : itds.length = azi.length) (h : hrirsIldItd azi zen ilds itds pclims = .ok (m1, m2)) :
    m1.points.length = azi.length ∧ m2.points.length = azi.length ∧
      (∀ (i : ℕ) (h1 : i < m1.points.length) (h2 : i < m2.points.length) (ha : i < azi.length) (hz : i < zen.length) (hl : i < ilds.length) (ht : i < itds.length),
        m1.points[i] = (hrirAzimuth azi[i], zen[i], ilds[i]) ∧ m2.points[i] = (hrirAzimuth azi[i], zen[i], 1000 * itds[i])) ∧
      m1.vmin = -m1.vmax ∧ m2.vmin = -m2.vmax ∧ (∀ l, pclims.1 = some l → m1.vmax = l) ∧ (∀ l, pclims.2 = some l → m2.vmax = l) ∧
      (pclims.1 = none → (∀ x ∈ ilds, m1.vmin ≤ x ∧ x ≤ m1.vmax) ∧ ∃ x ∈ ilds, |x| = m1.vmax) ∧
      (pclims.2 = none → (∀ x ∈ itds, m2.vmin ≤ 1000 * x ∧ 1000 * x ≤ m2.vmax) ∧ ∃ x ∈ itds, |1000 * x| = m2.vmax) := by
  unfold hrirsIldItd at h
  cases h1 : signedMap azi zen ilds pclims.1 with
  | error e => rw [h1] at h; cases h
  | ok a =>
    rw [h1] at h
    simp only [Except.bind] at h
    cases h2 : signedMap azi zen (itds.map (1000 * ·)) pclims.2 with
    | error e => rw [h2] at h; cases h
    | ok b =>
      rw [h2] at h
      obtain ⟨rfl, rfl⟩ := Prod.mk.inj (Except.ok.inj h)
      obtain ⟨p1, s1, g1, n1⟩ := signedMap_spec _ _ _ _ _ h1
      obtain ⟨p2, s2, g2, n2⟩ := signedMap_spec _ _ _ _ _ h2
      refine ⟨by simp [p1, hz, hi], by simp [p2, hz, ht], ?_, s1, s2, g1, g2, n1, ?_⟩
      · intro i _ _ _ _ _ _
        simp [p1, p2]
      · intro hn
        obtain ⟨q1, x, hx, q2⟩ := n2 hn
        obtain ⟨y, hy, rfl⟩ := List.mem_map.1 hx
        exact ⟨fun x hx => q1 _ (List.mem_map_of_mem hx), y, hy, q2⟩

/-- `C122_maps`: the hypotheses are met for two directions. -/
example : ∃ m1 m2, hrirsIldItd [0, π / 2] [1, 1] [0, 3] [0, 1 / 2000] (none, some 2) = .ok (m1, m2) ∧ m1.vmin = -m1.vmax ∧ m2.vmax = 2 := by
  refine ⟨_, _, rfl, ?_⟩
  obtain ⟨-, -, -, h1, -, -, h2, -⟩ := C122_maps [0, π / 2] [1, 1] [0, 3] [0, 1 / 2000] (none, some 2) _ _ rfl rfl rfl rfl
  exact ⟨h1, h2 2 rfl⟩

/-- C122: an empty set has no largest difference (`ValueError`) unless both limits are given. -/
theorem C122_empty (azi zen : List ℝ) (l : Option ℝ) : hrirsIldItd azi zen [] [] (none, l) = .error .valueError ∧
    (∀ a, hrirsIldItd azi zen [] [] (some a, none) = .error .valueError) ∧ ∀ a b, ∃ m, hrirsIldItd azi zen [] [] (some a, some b) = .ok m :=
  ⟨rfl, fun _ => rfl, fun _ _ => ⟨_, rfl⟩⟩

example : ∃ m1 m2, hrirsIldItd [0, π / 2] [1, 1] [0, 3] [0, 1 / 2000] (none, none) = .ok (m1, m2) ∧ m1.vmax = 3 := by
  refine ⟨_, _, rfl, ?_⟩
  simp

end Verif.Props
