import Mathlib.Analysis.SpecialFunctions.Trigonometric.Basic
import Mathlib.Analysis.SpecialFunctions.Log.Base
import Mathlib.Analysis.SpecialFunctions.Pow.Real
import Mathlib.Data.Matrix.Basic
import Mathlib.Order.WithBot
import Verif.Model.Base
import Verif.Model.Signals

/-!
Model of `/repo/spaudiopy/process.py`: `resample_hrirs`, `match_loudness`, `lagrange_delay`, `frac_octave_smoothing`,
`frac_octave_filterbank`, `subband_levels`, `energy_decay`, `half_sided_Hann`, `gain_clipping`, `pulsed_noise`.
-/

namespace Verif.Process

open Real Verif.Sig

/-! ### `lagrange_delay` -/

/-- One pass of the loop `process.py` 363-365: every tap except `k` is multiplied by `(delay - k) / (n - k)`. -/
noncomputable def lagrangeStep (N : ℕ) (delay : ℝ) (h : Fin (N + 1) → ℝ) (k : ℕ) : Fin (N + 1) → ℝ :=
  fun n => if (n : ℕ) ≠ k then h n * (delay - k) / ((n : ℝ) - k) else h n

/-- `process.py` 344-366 `lagrange_delay`, for an order `N ≥ 0`. -/
noncomputable def lagrangeDelay (N : ℕ) (delay : ℝ) : Fin (N + 1) → ℝ :=
  (List.range (N + 1)).foldl (lagrangeStep N delay) fun _ => 1

/-! ### `frac_octave_smoothing` -/

/-- `np.hamming(M)` (`process.py` 393) for a whole number `M ≥ 0`. -/
noncomputable def hamming (M : ℕ) : List ℝ :=
  if M < 1 then []
  else if M = 1 then [1]
  else (List.range M).map fun i : ℕ => 0.54 + 0.46 * cos (π * (1 - M + 2 * i) / (M - 1))

/-- `process.py` 390: `np.floor(idx / 2**(1/(2*smoothing_n)))`. -/
noncomputable def smoothLo (sn : ℝ) (idx : ℕ) : ℤ := ⌊(idx : ℝ) / 2 ^ (1 / (2 * sn))⌋

/-- `process.py` 391: `np.clip(np.ceil(idx * 2**(1/(2*smoothing_n))), 1, num_smpls)`. -/
noncomputable def smoothHi (sn : ℝ) (n idx : ℕ) : ℤ := min (max ⌈(idx : ℝ) * 2 ^ (1 / (2 * sn))⌉ 1) n

/-- `process.py` 392-397, one output value: the (weighted) mean over the window.
Simplification: `win` and the slice have equal length (a mismatch would raise); the theorems show that they have. -/
noncomputable def smoothAt (a : List ℝ) (sn : ℝ) (weighted : Bool) (idx : ℕ) : ℝ :=
  let lo := smoothLo sn idx
  let hi := smoothHi sn a.length idx
  let win := if weighted then hamming (hi - lo).toNat else List.replicate (hi - lo).toNat 1
  1 / win.sum * (List.zipWith (· * ·) win (pySlice a lo hi)).sum

/-- `process.py` 369-398 `frac_octave_smoothing` of a one-dimensional floating point array. -/
noncomputable def fracOctaveSmoothing (a : List ℝ) (sn : ℝ) (weighted : Bool) : List ℝ :=
  (List.range a.length).map (smoothAt a sn weighted)

/-- `process.py` 387 `np.zeros_like(a)`: for an *integer* input array the result array is an integer array, and every mean is truncated when stored. -/
noncomputable def fracOctaveSmoothingInt (a : List ℤ) (sn : ℝ) (weighted : Bool) : List ℤ :=
  (fracOctaveSmoothing (a.map fun x : ℤ => (x : ℝ)) sn weighted).map pyInt

/-! ### `frac_octave_filterbank` -/

/-- `np.round`: to the nearest integer, halves to the even one (`process.py` 504). -/
noncomputable def npRound (x : ℝ) : ℤ :=
  if x - ⌊x⌋ < 1 / 2 then ⌊x⌋
  else if 1 / 2 < x - ⌊x⌋ then ⌊x⌋ + 1
  else if ⌊x⌋ % 2 = 0 then ⌊x⌋ else ⌊x⌋ + 1

/-- The `while` loop over the centre frequencies (`process.py` 478-483) as a big-step relation: `Centers n f_high fc l` means that the loop entered with
last centre frequency `fc` ends with the list `l` from `fc` on. -/
inductive Centers (n fHigh : ℝ) : ℝ → List ℝ → Prop
  | stop (fc : ℝ) : ¬ fc * 2 ^ (1 / (2 * n)) < fHigh → Centers n fHigh fc [fc]
  | step (fc : ℝ) (l : List ℝ) : fc * 2 ^ (1 / (2 * n)) < fHigh → Centers n fHigh (2 ^ (1 / n) * fc) l → Centers n fHigh fc (fc :: l)

/-- `process.py` 471-475: the upper limit `f_high`, with `f_alias = fs // 2`. -/
noncomputable def filterHigh (fs : ℝ) (fHigh : Option ℝ) : ℝ :=
  match fHigh with
  | none => ⌊fs / 2⌋
  | some f => min f ⌊fs / 2⌋

/-- `process.py` 487, 495, 500: the DFT line of the lower band edge of the band with centre `fc`. -/
noncomputable def bandK (n fs N fc : ℝ) : ℤ := ⌊N * (2 * π * (fc / 2 ^ (1 / (2 * n)))) / (2 * π * fs)⌋

/-- `process.py` 504: half the number of transition bins of the band with centre `fc`. -/
noncomputable def bandP (n fs N overlap fc : ℝ) : ℤ :=
  npRound (overlap * (N * (2 * π * fc - 2 * π * (fc / 2 ^ (1 / (2 * n)))) / (2 * π * fs)))

/-- `process.py` 508-515: position `p` of a transition with half width `P`, after `slope` recursions (0/0 is replaced by 1), in `[-1, 1]`. -/
noncomputable def phi (P : ℤ) (slope : ℕ) (p : ℤ) : ℝ :=
  (fun x : ℝ => sin (π / 2 * x))^[slope] (if P = 0 then 1 else (p : ℝ) / P)

/-- `process.py` 518-519: the rising flank `a`. -/
noncomputable def flankUp (P : ℤ) (slope : ℕ) (p : ℤ) : ℝ := sin (π / 2 * (0.5 * (phi P slope p + 1)))

/-- `process.py` 518, 520: the falling flank `b`. -/
noncomputable def flankDown (P : ℤ) (slope : ℕ) (p : ℤ) : ℝ := cos (π / 2 * (0.5 * (phi P slope p + 1)))

/-- The assignments `process.py` 523-527 for band `b` with edge `k` and half width `P` on a gain array with `F` bins. -/
noncomputable def bandAssign (F : ℕ) (slope : ℕ) (g : ℕ → ℕ → ℝ) (b : ℕ) (k P : ℤ) : ℕ → ℕ → ℝ := fun row i =>
  let lo := sliceBound F (k - P)
  let hi := sliceBound F (k + P + 1)
  if row = b then
    if sliceBound F (k + P) ≤ i then 0
    else if lo ≤ i ∧ i < hi then flankDown P slope (if P = 0 then 0 else (i : ℤ) - lo - P)
    else g row i
  else if row = b + 1 then
    if i < sliceBound F (k - P) then 0
    else if lo ≤ i ∧ i < hi then flankUp P slope (if P = 0 then 0 else (i : ℤ) - lo - P)
    else g row i
  else g row i

/-- The loop body `process.py` 508-527: a flank that does not fit its slice raises `ValueError` (a single value is broadcast). -/
noncomputable def bandStep (F : ℕ) (slope : ℕ) (g : ℕ → ℕ → ℝ) (b : ℕ) (k P : ℤ) : Py (ℕ → ℕ → ℝ) :=
  if (2 * P + 1).toNat ≠ 1 ∧ (2 * P + 1).toNat ≠ sliceBound F (k + P + 1) - sliceBound F (k - P) then .error .valueError
  else .ok (bandAssign F slope g b k P)

/-- The loop `process.py` 507-527 over the bands from number `b` on. -/
noncomputable def bandLoop (F : ℕ) (slope : ℕ) : (ℕ → ℕ → ℝ) → ℕ → List (ℤ × ℤ) → Py (ℕ → ℕ → ℝ)
  | g, _, [] => .ok g
  | g, b, kp :: l => (bandStep F slope g b kp.1 kp.2).bind fun g' => bandLoop F slope g' (b + 1) l

/-- `mode` strings of `process.py` 529-535. -/
inductive FbMode
  | energy | amplitude | pressure | other
  deriving DecidableEq, Repr

/-- `process.py` 529-535. -/
noncomputable def applyMode (mode : FbMode) (g : ℕ → ℕ → ℝ) : Py (ℕ → ℕ → ℝ) :=
  match mode with
  | .energy => .ok g
  | .amplitude => .ok fun r i => g r i ^ 2
  | .pressure => .ok fun r i => g r i ^ 2
  | .other => .error .valueError

/-- `process.py` 467-535 `frac_octave_filterbank`, the gains, given the centre frequencies `fc` the `while` loop produced.
`g r i` is meaningful for `r ≤ fc.length` and `i < N_out`.  Simplification: `N_out ≥ 2` (else the frequency axis does not exist). -/
noncomputable def filterbank (n : ℝ) (Nout : ℕ) (fs : ℝ) (fc : List ℝ) (mode : FbMode) (overlap : ℝ) (slope : ℕ) : Py (ℕ → ℕ → ℝ) :=
  if overlap ≤ 0.5 then
    (bandLoop Nout slope (fun _ _ => 1) 0
      (fc.map fun f => (bandK n fs (((Nout : ℝ) - 1) * 2) f, bandP n fs (((Nout : ℝ) - 1) * 2) overlap f))).bind (applyMode mode)
  else .error .assertionError

/-! ### Levels, decay, windows -/

/-- Largest root mean square over the channels (`process.py` 290-291); `np.max` of nothing is a `ValueError`. -/
noncomputable def loudest {n c : ℕ} (x : Matrix (Fin n) (Fin c) ℝ) : Py ℝ :=
  match (List.finRange c).map fun j => √((∑ i, x i j ^ 2) / n) with
  | [] => .error .valueError
  | v :: vs => .ok (vs.foldl max v)

/-- `np.max(np.abs(sig_out))` (`process.py` 293). -/
noncomputable def peakOf {n c : ℕ} (x : Matrix (Fin n) (Fin c) ℝ) : Py ℝ :=
  match ((List.finRange n).flatMap fun i => (List.finRange c).map fun j => |x i j|) with
  | [] => .error .valueError
  | v :: vs => .ok (vs.foldl max v)

/-- `process.py` 274-297 `match_loudness`.  Simplification: a silent input divides by zero; theorems exclude it. -/
noncomputable def matchLoudness {n m c d : ℕ} (x : Matrix (Fin n) (Fin c) ℝ) (target : Matrix (Fin m) (Fin d) ℝ) : Py (Matrix (Fin n) (Fin c) ℝ) :=
  (loudest x).bind fun lin => (loudest target).bind fun lt =>
    (peakOf (fun i j => x i j * lt / lin)).map fun peak =>
      if peak > 1 then fun i j => x i j * lt / lin / peak else fun i j => x i j * lt / lin

/-- `np.trapz(p**2)` (`process.py` 571). -/
noncomputable def trapzSq (p : List ℝ) : ℝ := (List.zipWith (fun x y => (x ^ 2 + y ^ 2) / 2) p p.tail).sum

/-- `10 * np.log10(x)` of a non-negative number (`process.py` 573): `-inf` at zero. -/
noncomputable def dB10 (x : ℝ) : WithBot ℝ := if x ≤ 0 then ⊥ else ((10 * logb 10 x : ℝ) : WithBot ℝ)

/-- `process.py` 560-573 `energy_decay`: backward sums over the trapezoidal total.
Simplification: a vanishing total (one sample, or silence) divides by zero; theorems exclude it. -/
noncomputable def energyDecay (p : List ℝ) : List (WithBot ℝ) :=
  (List.range p.length).map fun i => dB10 (((p.drop i).map (· ^ 2)).sum / trapzSq p)

/-- `signal.hann(M)` (`process.py` 579), symmetric. -/
noncomputable def hann (M : ℕ) : List ℝ :=
  if M = 1 then [1] else (List.range M).map fun i : ℕ => 0.5 - 0.5 * cos (2 * π * i / (M - 1))

/-- Assignment of the last `m > 0` entries of a list (`process.py` 582); other lengths do not fit (`ValueError`). -/
def setTail (w v : List ℝ) (m : ℕ) : Py (List ℝ) :=
  if v.length = min m w.length then .ok (w.take (w.length - m) ++ v) else .error .valueError

/-- `process.py` 576-583 `half_sided_Hann`. -/
noncomputable def halfSidedHann (N : ℤ) : Py (List ℝ) :=
  if 3 ≤ N then
    let wFull := hann (2 * ((N + 1) / 2) + 1).toNat
    let part := pySlice wFull (-((N + 1) / 2)) (-1)
    setTail (List.replicate (N + 1).toNat 1) part ((N - 1) / 2).toNat
  else .error .assertionError

/-- `process.py` 586-618 `gain_clipping`, elementwise.  Simplification: the threshold is not zero. -/
noncomputable def gainClipping (gain threshold : ℝ) : ℝ :=
  let g := gain / threshold
  (if g > 1 then 1 + tanh (g - 1) else g) * threshold

/-- `process.py` 547-557 `subband_levels` with the default axis, for one row `x` of `N` samples. -/
noncomputable def subbandLevel {N : ℕ} (x : Fin N → ℝ) (width fs : ℝ) (power : Bool) : ℝ :=
  if power then 1 / N * 1 / width * fs / 2 * ∑ i, |x i| ^ 2 else √(1 / width * fs / 2 * ∑ i, |x i| ^ 2)

/-- `process.py` 547-557 `subband_levels` with the default axis, for `B` rows of `N` complex samples and one width per row.  A one-dimensional `x` (an
`IndexError` at line 549) and other axes are left out. -/
noncomputable def subbandLevels {B N : ℕ} (x : Fin B → Fin N → ℂ) (width : Fin B → ℝ) (fs : ℝ) (power : Bool) (b : Fin B) : ℝ :=
  if power then 1 / N * 1 / width b * fs / 2 * ∑ i, ‖x b i‖ ^ 2 else √(1 / width b * fs / 2 * ∑ i, ‖x b i‖ ^ 2)

/-! ### `pulsed_noise` -/

/-- `np.linspace(0, np.pi/2, m)` (`process.py` 664-665). -/
noncomputable def quarter (m i : ℕ) : ℝ := if m = 1 then 0 else (i : ℝ) * (π / 2) / (m - 1)

/-- The fades `process.py` 663-669 on a pulse.  A fade longer than the pulse does not fit (`ValueError`); a fade of zero samples addresses the *whole* pulse
in line 669 (`s[-0:]`), which does not fit either, unless the pulse is empty; a fade of one sample is broadcast to an empty pulse. -/
noncomputable def fade (s : List ℝ) (m : ℕ) : Py (List ℝ) :=
  if (s.length < m ∧ ¬ (s = [] ∧ m = 1)) ∨ (m = 0 ∧ s ≠ []) then .error .valueError
  else .ok (s.mapIdx fun i x =>
    x * (if i < m then sin (quarter m i) ^ 2 else 1) * (if s.length - m ≤ i then cos (quarter m (i - (s.length - m))) ^ 2 else 1))

/-- One pulse, `process.py` 651-669: `white` are the random samples, `pinken` the external filter `irfft(rfft(x)/sqrt(1..))` of lines 653-658, which returns an even
number of samples; a transform of fewer than two samples is rejected. -/
noncomputable def pulse (pinken : List ℝ → List ℝ) (pink : Bool) (white : List ℝ) (fadeLen : ℕ) : Py (List ℝ) :=
  if pink then (if white.length < 2 then .error .valueError else fade (pinken white) fadeLen)
  else fade white fadeLen

/-- `process.py` 648-676 `pulsed_noise`; `white r` are the samples of repetition `r`, drawn with length `int(fs*t_noise)`.  `t_pause` is not used by the code.
Simplification: non-negative durations; normalising an all-zero signal divides by zero; normalising nothing (no samples) is a `ValueError`. -/
noncomputable def pulsedNoise (pinken : List ℝ → List ℝ) (white : ℕ → List ℝ) (tNoise _tPause fs : ℝ) (reps : ℕ) (tFade : ℝ) (pink normalize : Bool) :
    Py (List ℝ) :=
  ((List.range reps).mapM fun r => pulse pinken pink (white r) (pyInt (fs * tFade)).toNat).bind fun ps =>
    let out := ps.flatMap fun p => p ++ List.replicate (pyInt (fs * tNoise)).toNat 0
    if normalize then
      match out.map abs with
      | [] => .error .valueError
      | v :: vs => .ok (out.map (· / vs.foldl max v))
    else .ok out

/-! ### `resample_hrirs` -/

/-- The result list of `pool.starmap` (`process.py` 62-70): task `i` writes slot `i`; `order` is the order in which the tasks complete. -/
def poolFill {α : Type} (task : ℕ → α) (order : List ℕ) (slots : ℕ → Option α) : ℕ → Option α :=
  order.foldl (fun s i => fun j => if j = i then some (task i) else s j) slots

/-- `pool.starmap(resampy.resample, rows)` (`process.py` 62-70) with a completion order; `none` in a slot would be a missing result. -/
noncomputable def starmapRows (rs : Resampler) (rows : List (List ℝ)) (fs fsNew : ℝ) (order : List ℕ) : List (Option (List ℝ)) :=
  (List.range rows.length).map (poolFill (fun i => rs.run fs fsNew (rows.getD i [])) order fun _ => none)

/-- `process.py` 25-73 `resample_hrirs`; `jobs = none` is `None`, replaced by the number of processors `cpus`.  The two `order`s are the completion orders of the
two `starmap` calls.  A non-positive number of jobs returns the zero arrays of lines 53-55.
Simplification: the resampling itself does not raise. -/
noncomputable def resampleHrirs (rs : Resampler) (left right : List (List ℝ)) (cols : ℕ) (fs fsNew : ℝ) (jobs : Option ℤ) (cpus : ℕ) (orderL orderR : List ℕ) :
    List (Option (List ℝ)) × List (Option (List ℝ)) × ℝ :=
  let j := jobs.getD cpus
  let zeros := List.replicate left.length (some (List.replicate (pyInt (cols * fsNew / fs)).toNat 0))
  if j = 1 then (left.map fun r => some (rs.run fs fsNew r), right.map fun r => some (rs.run fs fsNew r), fsNew)
  else if j > 1 then (starmapRows rs left fs fsNew orderL, starmapRows rs right fs fsNew orderR, fsNew)
  else (zeros, zeros, fsNew)

end Verif.Process
