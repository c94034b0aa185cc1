import Verif.Model.MagLs
import Verif.Model.Grids
import Verif.Model.Process

/-!
Model of `/repo/spaudiopy/process.py` 124-194 `hrirs_ctf`.
-/

namespace Verif.Process

open Real Verif.Sig

/-- `H_avg_left`, `H_avg_right` (`process.py` 155-161) of responses of `S` samples, transformed with `n = 16 * S` points.
Simplification: the weighted sums are not negative (`np.sqrt` of a negative number is `nan`). -/
noncomputable def ctfAvg (S : ℕ) (w : List ℝ) (a : Arr2) : List ℝ :=
  (List.range (8 * S + 1)).map fun k : ℕ =>
    0.5 * √(∑ g ∈ Finset.range w.length, w.getD g 0 * ‖Decoder.hrtf (16 * S) a g k‖ ^ 2) / (4 * π)

/-- `H_avg_smooth` (`process.py` 164-167). -/
noncomputable def ctfSmooth (l r : List ℝ) : List ℝ :=
  List.zipWith (fun x y => 0.5 * x + 0.5 * y) (fracOctaveSmoothing l 1 true) (fracOctaveSmoothing r 1 true)

/-- `freq_weights[k]` (`process.py` 171-177) for `len` frequencies; the second assignment overwrites the first. -/
noncomputable def ctfWeight (len lo hi k : ℕ) : ℝ :=
  if hi ≤ k then Decoder.hanning (2 * (len - hi) + 1) (len - hi + 1 + (k - hi))
  else if k < lo then Decoder.hanning (2 * lo + 1) k
  else 1

/-- The divisor in `process.py` 181: the mean magnitude around 1 kHz; `none` is the `nan` of an empty slice (which arises for
`idx_1k < 5`, where the slice begins with a negative index). -/
noncomputable def ctfNorm (H : List ℝ) (idx1k : ℕ) : Option ℝ :=
  let s := pySlice H ((idx1k : ℤ) - 5) ((idx1k : ℤ) + 5)
  if s.length = 0 then none else some ((s.map fun x => |x|).sum / s.length)

/-- `H_weighted_inv[k]` (`process.py` 181-183).  Simplification: `1 / 0` is `0` instead of `inf`. -/
noncomputable def ctfInv (H : List ℝ) (norm : ℝ) (lo hi k : ℕ) : ℝ :=
  ctfWeight H.length lo hi k * (1 / (H.getD k 0 / norm)) + (1 - ctfWeight H.length lo hi k)

/-- `np.hanning(M)[i]` (`process.py` 192); `np.hanning(1)` is `[1.]`. -/
noncomputable def npHanning (M i : ℕ) : ℝ := if M = 1 then 1 else Decoder.hanning M i

/-- `process.py` 186-194: `D` is `H_weighted_inv`, `minPhase` the external `signal.minimum_phase`; `np.fft.fftshift` of an even
number of samples moves by half their number, `np.roll` by `num_taps//2+1`. -/
noncomputable def ctfTaps (minPhase : List ℝ → List ℝ) (S : ℕ) (isMin : Bool) (D : ℕ → ℝ) : List ℝ :=
  if isMin then
    (minPhase ((List.range (16 * S)).map fun t : ℕ => Decoder.irfftAt (8 * S + 1) (fun k => ((D k ^ 2 : ℝ) : ℂ)) ((t + 8 * S) % (16 * S)))).take S
  else
    (List.range S).map fun t : ℕ => Decoder.irfftAt (8 * S + 1) (fun k => (D k : ℂ)) ((t + (16 * S - (S / 2 + 1))) % (16 * S)) * npHanning S t

/-- `process.py` 150-194 with the grid weights at hand; the result `none` stands for taps that are all `nan`. Responses without
samples: `np.fft.rfft` of zero points raises `ValueError`. -/
noncomputable def ctfWith (minPhase : List ℝ → List ℝ) (h : HRIRs) (isMin : Bool) (lims : ℝ × ℝ) (w : List ℝ) : Py (Option (List ℝ)) :=
  let S := h.left.cols
  if w.length ≠ h.azi.length then .error .assertionError
  else if S = 0 then .error .valueError
  else
    let H := ctfSmooth (ctfAvg S w h.left) (ctfAvg S w h.right)
    (Decoder.magCut (16 * S) h.fs lims.1).bind fun lo =>
      (Decoder.magCut (16 * S) h.fs lims.2).bind fun hi =>
        (Decoder.magCut (16 * S) h.fs 1000).map fun i1k =>
          (ctfNorm H i1k).map fun norm => ctfTaps minPhase S isMin (ctfInv H norm lo hi)

/-- `process.py` 124-194 `hrirs_ctf`; `pinv` is the external pseudo-inverse inside `calculate_grid_weights`, which is called with order 5.
Simplifications: `fs` is positive; given weights are an array (`grid_weights[:, None]` of a list raises `TypeError`); as many rows left and
right as directions, `num_samples` and `num_grid_points` as set by the constructor (the `HRIRs` class checks and sets them). -/
noncomputable def hrirsCtf (minPhase : List ℝ → List ℝ) (pinv : (Q K : ℕ) → Matrix (Fin Q) (Fin K) ℝ → Matrix (Fin K) (Fin Q) ℝ) (h : HRIRs)
    (isMin : Bool) (lims : ℝ × ℝ) (gridWeights : Option (List ℝ)) : Py (Option (List ℝ)) :=
  match gridWeights with
  | some w => ctfWith minPhase h isMin lims w
  | none =>
    (Grids.calculateGridWeights (fun _ => 0) (pinv _) (fun g : Fin h.azi.length => h.azi.getD g 0) (fun g => h.zen.getD g 0) (some 5)).bind
      fun p => ctfWith minPhase h isMin lims (List.ofFn p.1)

end Verif.Process
