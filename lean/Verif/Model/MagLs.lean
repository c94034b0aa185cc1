import Verif.Model.Binaural
import Verif.Model.PostEq
import Verif.Model.SphCore

/-!
Model of `/repo/spaudiopy/decoder.py` 1326-1468 `magls_bin`.
-/

namespace Verif.Decoder

open Real Verif.Sig Verif.Sph

/-- The argument `hf_cont` (`decoder.py` 1417-1439). -/
inductive HfCont
  | avg | angle | delay | other
  deriving DecidableEq, Repr

/-- `nfft` for responses of `S` samples (`decoder.py` 1394-1395). -/
def magNfft (S : ℕ) : ℕ := max 1024 S

/-- `len(freqs)` (`decoder.py` 1396). -/
def magBins (n : ℕ) : ℕ := n / 2 + 1

/-- `k_cuton` (`decoder.py` 1396, 1401): the first of the frequencies `k * fs / n` nearest to `f_trans`; `np.argmin` is `np.argmax` of the
negated values. -/
noncomputable def magCut (n : ℕ) (fs fTrans : ℝ) : Py ℕ :=
  npArgmax ((List.range (magBins n)).map fun k : ℕ => -|(k : ℝ) * fs / n - fTrans|)

/-- `np.fft.rfft(hrirs, n=nfft)` (`decoder.py` 1398-1399), direction `g`, bin `k`. -/
noncomputable def hrtf (n : ℕ) (a : Arr2) (g k : ℕ) : ℂ := Parsa.dft n n (fun m => (a.rows.getD g []).getD m 0) k

/-- `np.fft.irfft` of `m` bins (`decoder.py` 1460), sample `t`; the length is `2 * (m - 1)`. -/
noncomputable def irfftAt (m : ℕ) (X : ℕ → ℂ) (t : ℕ) : ℝ :=
  1 / (2 * (m - 1) : ℕ) * ((X 0).re + (-1) ^ t * (X (m - 1)).re
    + 2 * ∑ k ∈ Finset.range (m - 2), (X (k + 1) * Complex.exp (2 * π * Complex.I * ((k + 1 : ℕ) * t) / (2 * (m - 1) : ℕ))).re)

/-- `Y @ c` and `Y_pinv @ h` (`decoder.py` 1412-1415, 1447-1458): a real matrix times a complex vector. -/
noncomputable def realMul {r c : ℕ} (A : Matrix (Fin r) (Fin c) ℝ) (v : Fin c → ℂ) (i : Fin r) : ℂ := ∑ j, (A i j : ℂ) * v j

/-- One step of the loop, `decoder.py` 1446-1458, from the coefficients of the previous bin. -/
noncomputable def magStep {G K : ℕ} (Y : Matrix (Fin G) (Fin K) ℝ) (P : Matrix (Fin K) (Fin G) ℝ) (delta : Fin G → ℝ) (prev : Fin K → ℂ)
    (H : Fin G → ℂ) : Fin K → ℂ :=
  realMul P fun g => (‖H g‖ : ℂ) * Complex.exp (Complex.I * (((realMul Y prev g).arg + delta g : ℝ) : ℂ))

/-- `hrtfs_mls_nm` of one ear at bin `k` (`decoder.py` 1406-1458).  At bin 0 the index `k-1` is the last bin, which is still zero. -/
noncomputable def magCoeffs {G K : ℕ} (Y : Matrix (Fin G) (Fin K) ℝ) (P : Matrix (Fin K) (Fin G) ℝ) (H : Fin G → ℕ → ℂ) (cut : ℕ)
    (delta : Fin G → ℝ) : ℕ → Fin K → ℂ
  | 0 => if 0 < cut then realMul P fun g => H g 0 else magStep Y P delta (fun _ => 0) fun g => H g 0
  | k + 1 => if k + 1 < cut then realMul P fun g => H g (k + 1) else magStep Y P delta (magCoeffs Y P H cut delta k) fun g => H g (k + 1)

/-- Difference of neighbouring values after `np.unwrap` (`decoder.py` 1422-1434): differences of at least half a turn are replaced by
their value modulo one turn in `[-π, π)`, with `π` for `-π` if the difference was positive. -/
noncomputable def unwrapDiff (d : ℝ) : ℝ :=
  open Classical in
  if |d| < π then d
  else
    let m := pyMod (d + π) (2 * π) - π
    if m = -π ∧ 0 < d then π else m

/-- `np.unwrap` (`decoder.py` 1422-1434), with the corrections summed up on the way. -/
noncomputable def unwrap (p : ℕ → ℝ) : ℕ → ℝ
  | 0 => p 0
  | k + 1 => unwrap p k + unwrapDiff (p (k + 1) - p k)

/-- `np.mean(np.diff(np.unwrap(p)[cut-6:cut-1]))` (`decoder.py` 1422-1434). -/
noncomputable def meanDiff (p : ℕ → ℝ) (cut : ℕ) : ℝ :=
  (∑ i ∈ Finset.range 4, (unwrap p (cut - 6 + i + 1) - unwrap p (cut - 6 + i))) / 4

/-- `delta_phi` of one ear (`decoder.py` 1417-1439), for the coefficients of the linear part. -/
noncomputable def magDelta {G N : ℕ} (Y : Matrix (Fin G) (Fin ((N + 1) ^ 2)) ℝ) (P : Matrix (Fin ((N + 1) ^ 2)) (Fin G) ℝ) (H : Fin G → ℕ → ℂ)
    (cut : ℕ) (cont : HfCont) : Py (Fin G → ℝ) :=
  let lin := fun k => realMul P fun g => H g k
  match cont with
  | .avg => if 5 < cut then .ok fun _ => meanDiff (fun k => (lin k ⟨0, by positivity⟩).arg) cut else .error .assertionError
  | .angle => if 5 < cut then .ok fun g => meanDiff (fun k => (realMul Y (lin k) g).arg) cut else .error .assertionError
  | .delay => .ok fun _ => 0
  | .other => .error .valueError

/-- `np.hanning(M)[i]` (`decoder.py` 1465, 1467). -/
noncomputable def hanning (M i : ℕ) : ℝ := 0.5 - 0.5 * cos (2 * π * i / (M - 1 : ℕ))

/-- Factor of sample `t` of `L` samples (`decoder.py` 1463-1467). -/
noncomputable def magTaper (L t : ℕ) : ℝ := (if L - 32 ≤ t then hanning 64 (32 + (t - (L - 32))) else 1) * (if t < 4 then hanning 8 t else 1)

/-- `decoder.py` 1460-1467 for one ear and one channel; fewer than 32 samples do not broadcast with the taper (`ValueError`). -/
noncomputable def magTaps (S n : ℕ) (X : ℕ → ℂ) : Py (List ℝ) :=
  let L := min S (2 * (magBins n - 1))
  if L < 32 then .error .valueError
  else .ok ((List.range L).map fun t => irfftAt (magBins n) X t * magTaper L t)

/-- One ear of `decoder.py` 1398-1467: the responses of every channel. -/
noncomputable def magEar {G N : ℕ} (Y : Matrix (Fin G) (Fin ((N + 1) ^ 2)) ℝ) (P : Matrix (Fin ((N + 1) ^ 2)) (Fin G) ℝ) (S : ℕ) (a : Arr2) (cut : ℕ)
    (cont : HfCont) (hfDelay : ℝ) : Py (List (List ℝ)) :=
  let n := magNfft S
  let H := fun (g : Fin G) k => hrtf n a g k
  (magDelta Y P H cut cont).bind fun delta =>
    (List.finRange ((N + 1) ^ 2)).mapM fun q => magTaps S n fun k => magCoeffs Y P H cut (fun g => delta g - 2 * π * (hfDelay / n)) k q

/-- `decoder.py` 1326-1468 `magls_bin`: left and right responses; `pinv` is `np.linalg.pinv`.  `delta_w * (hf_delay / fs)` is
`2π (fs / n) (hf_delay / fs)`.  A right ear with another number of directions does not fit the product with the pseudo-inverse (`ValueError`). -/
noncomputable def maglsBin (pinv : (m n : ℕ) → Matrix (Fin m) (Fin n) ℝ → Matrix (Fin n) (Fin m) ℝ) (h : HRIRs) (N : ℕ) (fTrans : Option ℝ)
    (cont : HfCont) (hfDelay : ℝ × ℝ) : Py (List (List ℝ) × List (List ℝ)) :=
  let Y := shMat N (fun g : Fin h.azi.length => h.azi.getD g 0) (fun g => h.zen.getD g 0)
  let S := h.left.cols
  (magCut (magNfft S) h.fs (fTrans.getD (N * 600))).bind fun cut =>
    if h.left.rows.length ≠ h.azi.length ∨ h.right.rows.length ≠ h.azi.length then .error .valueError
    else (magEar Y (pinv _ _ Y) S h.left cut cont hfDelay.1).bind fun l =>
      (magEar Y (pinv _ _ Y) S h.right cut cont hfDelay.2).map fun r => (l, r)

end Verif.Decoder
