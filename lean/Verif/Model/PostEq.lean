import Verif.Model.ParsaPar
import Verif.Model.Process
import Mathlib.Analysis.SpecialFunctions.Complex.Circle

/-!
Model of `/repo/spaudiopy/parsa.py` 634-946: `sdm_post_equalization` and `sdm_post_equalization2`, and of the frequency table of
`/repo/spaudiopy/process.py` 537-544.  Loudspeaker signals are rows `Fin L → List ℝ` of equal length `S`.
-/

namespace Verif.Parsa
open Real Sig Process

/-! ### Frequency table of the filter bank -/

/-- Row of the table for a full band (`process.py` 486-488, 538). -/
noncomputable def ffRow (n f : ℝ) : ℝ × ℝ × ℝ := (f / 2 ^ (1 / (2 * n)), f, f * 2 ^ (1 / (2 * n)))

/-- `process.py` 537-543: `[f_lo, f_c, f_hi]` of every band, given the centre frequencies `fc` of the `while` loop.
Simplification: `fc` is not empty (it starts with `f_low`). -/
noncomputable def ffTable (n fs : ℝ) (fc : List ℝ) : List (ℝ × ℝ × ℝ) :=
  let lo := fun f : ℝ => (ffRow n f).1
  let first := lo (fc.getD 0 0)
  let last := lo (fc.getD (fc.length - 1) 0)
  (0, √(1 * first), first) :: (fc.dropLast.map (ffRow n) ++ [(last, √(last * (fs / 2)), fs / 2)])

/-! ### Block processing -/

/-- The next even number, `np.ceil(x / 2) * 2` of a whole number (`parsa.py` 676). -/
def evenUp (z : ℤ) : ℤ := (z + 1) / 2 * 2

/-- `parsa.py` 671-676: the block size of every band. -/
noncomputable def blockSizes (fs : ℝ) (ff : List (ℝ × ℝ × ℝ)) : List ℕ :=
  ff.mapIdx fun i row => (evenUp (npRound (7 / (if i = 0 then row.2.1 else row.1) * fs))).toNat

/-- `parsa.py` 678. -/
noncomputable def padSize (sizes : List ℕ) : ℕ := sizes.foldl max 0

/-- `np.hstack([pad, x, pad])` (`parsa.py` 689-690, 823-824), read at an index. -/
def padded (pad : ℕ) (x : List ℝ) (t : ℕ) : ℝ := (List.replicate pad 0 ++ x ++ List.replicate pad 0).getD t 0

/-- `np.hanning(blocksize + 1)[0: -1]` (`parsa.py` 700, 819), read at an index. -/
noncomputable def blockWin (B k : ℕ) : ℝ := (hanning (B + 1)).dropLast.getD k 0

/-- The `while` loop over the blocks (`parsa.py` 701-702, 761; 839-840, 935) as a big-step relation: `Starts n B hop s l` means that the loop entered with
`start_idx = s` runs its body for the start indices `l`. -/
inductive Starts (n B hop : ℕ) : ℕ → List ℕ → Prop
  | stop (s : ℕ) : ¬ s + B ≤ n → Starts n B hop s []
  | step (s : ℕ) (l : List ℕ) : s + B ≤ n → Starts n B hop (s + hop) l → Starts n B hop s (s :: l)

/-- `np.fft.fft(x, nfft)` of `B` samples, zero padded (`parsa.py` 715-716, 851-852). -/
noncomputable def dft (nfft B : ℕ) (x : ℕ → ℝ) (k : ℕ) : ℂ := ∑ m ∈ Finset.range B, (x m : ℂ) * Complex.exp (-(2 * π * Complex.I * (k * m) / nfft))

/-- `np.fft.ifft` (`parsa.py` 748). -/
noncomputable def idft (nfft : ℕ) (Y : ℕ → ℂ) (m : ℕ) : ℂ := 1 / nfft * ∑ k ∈ Finset.range nfft, Y k * Complex.exp (2 * π * Complex.I * (k * m) / nfft)

/-- `parsa.py` 718-742: the gain of one frequency line, from the magnitude of the reference, the coherent and the incoherent sum. -/
noncomputable def magDiff (band : ℕ) (softClip : Bool) (hp coh inc : ℝ) : ℝ :=
  let c := max coh 10e-10
  let i := max inc 10e-10
  let g := hp / (if band = 0 then c else if band = 1 then 0.5 * c + 0.5 * i else if band = 2 then 0.25 * c + 0.75 * i else i)
  if softClip then gainClipping g 1 else g

/-- `parsa.py` 718-742 for a block: the gain of frequency line `k`, from the spectra of the reference and of the loudspeaker signals; `att` are the
distance attenuations `1 / ls_distance**a` (661, 718). -/
noncomputable def blockGain {L : ℕ} (band : ℕ) (softClip : Bool) (att : Fin L → ℝ) (Hp : ℕ → ℂ) (H : Fin L → ℕ → ℂ) (k : ℕ) : ℝ :=
  magDiff band softClip ‖Hp k‖ (∑ l, ‖(att l : ℂ) * H l k‖) (√(∑ l, ‖(att l : ℂ) * H l k‖ ^ 2))

/-- `parsa.py` 745-753: gains applied to a block spectrum, inverse transform, circular shift by `nfft // 2`. -/
noncomputable def eqBlock (nfft : ℕ) (g : ℕ → ℝ) (H : ℕ → ℂ) (m : ℕ) : ℝ := (idft nfft (fun k => H k * g k) ((m + nfft - nfft / 2) % nfft)).re

/-- `buf[a: a + len] += blk` (`parsa.py` 756-758, 929-932) on a buffer of `n` samples; a slice that does not fit the block raises `ValueError`.
Simplification: also a negative start, which NumPy would count from the end, is an error (theorem: neither happens). -/
noncomputable def olaAdd {L : ℕ} (n : ℕ) (buf : Fin L → ℕ → ℝ) (a : ℤ) (len : ℕ) (blk : Fin L → ℕ → ℝ) : Py (Fin L → ℕ → ℝ) :=
  if 0 ≤ a ∧ a + len ≤ n then .ok fun l u => if a ≤ u ∧ (u : ℤ) < a + len then buf l u + blk l ((u : ℤ) - a).toNat else buf l u
  else .error .valueError

/-- The body of the loop over the blocks (`parsa.py` 707-758) for block `start`. -/
noncomputable def postBlock {L : ℕ} (S pad B band : ℕ) (softClip : Bool) (att : Fin L → ℝ) (x : Fin L → List ℝ) (p : List ℝ) (buf : Fin L → ℕ → ℝ) (start : ℕ) :
    Py (Fin L → ℕ → ℝ) :=
  let nfft := B + B - 1
  let Hp := dft nfft B fun m => blockWin B m * padded pad p (start + m)
  let H := fun l => dft nfft B fun m => blockWin B m * padded pad (x l) (start + m)
  olaAdd (S + 4 * pad) buf ((pad : ℤ) + start - (nfft / 2 : ℕ)) nfft fun l => eqBlock nfft (blockGain band softClip att Hp H) (H l)

/-- `parsa.py` 764-769: a buffer of `n` samples filtered with the response of the band, mode `'same'`. -/
noncomputable def filterBuf {L : ℕ} (n : ℕ) (buf : Fin L → ℕ → ℝ) (ir : List ℝ) : Fin L → ℕ → ℝ :=
  fun l u => (convKeep .same ((List.range n).map (buf l)) ir).getD u 0

/-- `parsa.py` 777-778: the condition of the truncation warning, on a buffer of `n` samples with padding `pad`. -/
def warns {L : ℕ} (pad : ℕ) (buf : Fin L → ℕ → ℝ) : Prop := (∃ l, ∃ u < 2 * pad, |buf l u| > 10e-5) ∨ ∃ l, |buf l (2 * pad)| > 10e-5

/-- `ls_sigs_compensated[:, 2*pad: -2*pad]` (`parsa.py` 781, 944). -/
def truncate {L : ℕ} (n pad : ℕ) (buf : Fin L → ℕ → ℝ) (l : Fin L) : List ℝ :=
  pySlice ((List.range n).map (buf l)) (2 * pad) (-(2 * pad))

/-- Result of the two functions: signals before and after the final truncation, and whether the warning was given. -/
structure PostOut (L : ℕ) where
  buf : Fin L → ℕ → ℝ
  out : Fin L → List ℝ
  warned : Prop

/-- The loop over the bands (`parsa.py` 697-772) from band `band` on, given the start indices of every band. -/
noncomputable def postBands {L : ℕ} (S pad : ℕ) (softClip : Bool) (att : Fin L → ℝ) (x : Fin L → List ℝ) (p : List ℝ) :
    ℕ → List (List ℝ × ℕ × List ℕ) → Py (Fin L → ℕ → ℝ)
  | _, [] => .ok fun _ _ => 0
  | band, (ir, B, starts) :: rest =>
    (starts.foldlM (postBlock S pad B band softClip att x p) fun _ _ => 0).bind fun buf =>
      (postBands S pad softClip att x p (band + 1) rest).bind fun tail =>
        .ok fun l u => filterBuf (S + 4 * pad) buf ir l u + tail l u

/-- Possible results of `sdm_post_equalization` (`parsa.py` 634-783) with the frequency table `ff` of the filter bank and the filter responses `irs` that
`firwin2` (an external routine) returned for its gains, one per band.  `bands` pairs them with the block sizes and the start indices of the loop.
Simplification: at least one band, and block sizes as natural numbers (the relation has no result if a loop does not end). -/
inductive PostEq {L : ℕ} (S : ℕ) (fs : ℝ) (ff : List (ℝ × ℝ × ℝ)) (irs : List (List ℝ)) (softClip : Bool) (att : Fin L → ℝ) (x : Fin L → List ℝ) (p : List ℝ) :
    Py (PostOut L) → Prop
  | evenTaps (h : (padSize (blockSizes fs ff) / 2 - 1) % 2 = 0) : PostEq S fs ff irs softClip att x p (.error .assertionError)
  | badLength (h : (padSize (blockSizes fs ff) / 2 - 1) % 2 = 1) (hp : p.length ≠ S) : PostEq S fs ff irs softClip att x p (.error .assertionError)
  | run (h : (padSize (blockSizes fs ff) / 2 - 1) % 2 = 1) (hp : p.length = S) (starts : List (List ℕ)) (hl : starts.length = ff.length)
      (hs : ∀ i < ff.length, Starts (S + 2 * padSize (blockSizes fs ff)) ((blockSizes fs ff).getD i 0) ((blockSizes fs ff).getD i 0 / 2) 0 (starts.getD i [])) :
      PostEq S fs ff irs softClip att x p
        ((postBands S (padSize (blockSizes fs ff)) softClip att x p 0 (List.zip irs (List.zip (blockSizes fs ff) starts))).bind fun buf =>
          let pad := padSize (blockSizes fs ff)
          let out := truncate (S + 4 * pad) pad buf
          if ∀ l, (out l).length = S then .ok ⟨buf, out, warns pad buf⟩ else .error .assertionError)

/-! ### `sdm_post_equalization2` -/

/-- `parsa.py` 863-872: ratio of two levels, `nan` replaced by 1, clipped at 1 (so `inf` becomes 1 too). -/
noncomputable def levelRatio (Lp Ls : ℝ) : ℝ := if Ls = 0 then 1 else min (Lp / Ls) 1

/-- `parsa.py` 850-881: the gain of band `b` from the magnitudes of the block; `g` are the gains `filter_gs` and `width` the bandwidths.
Simplification: at least three bands (fewer are an `IndexError` at 877-880). -/
noncomputable def bandGain (N : ℕ) (fs : ℝ) (g : ℕ → ℕ → ℝ) (width : ℕ → ℝ) (pMag coh inc : ℕ → ℝ) (b : ℕ) : ℝ :=
  let level := fun m : ℕ → ℝ => subbandLevel (fun i : Fin N => g b i * m i) (width b) fs false
  let gi := levelRatio (level pMag) (level inc)
  let gc := levelRatio (level pMag) (level coh)
  if b = 0 then gc else if b = 1 then 0.5 * gc + 0.5 * gi else if b = 2 then 0.25 * gc + 0.75 * gi else gi

/-- `parsa.py` 850-881 for block `start`: gain of band `b`. -/
noncomputable def rawGain {L : ℕ} (B : ℕ) (fs : ℝ) (g : ℕ → ℕ → ℝ) (width : ℕ → ℝ) (att : Fin L → ℝ) (x : Fin L → List ℝ) (p : List ℝ) (start b : ℕ) : ℝ :=
  let Hp := dft B B fun m => blockWin B m * padded B p (start + m)
  let H := fun l => dft B B fun m => blockWin B m * padded B (x l) (start + m)
  bandGain (B / 2 + 1) fs g width (fun k => √(‖Hp k‖ ^ 2)) (fun k => ∑ l, ‖(att l : ℂ) * H l k‖) (fun k => √(∑ l, ‖(att l : ℂ) * H l k‖ ^ 2)) b

/-- `parsa.py` 886-889: the half-sided smoothing window for the current order. -/
noncomputable def smoothWin (co : ℤ) : List ℝ :=
  let w := pySlice (hanning (co * 2 + 1).toNat) (-(co + 1)) (-1)
  w.map (· / w.sum)

/-- `parsa.py` 884-895: smoothing of the gains of the current block with the list of earlier (smoothed) gains.  `w[0]` of an empty window is an
`IndexError`. -/
noncomputable def smoothGains (order : ℤ) (hist : List (ℕ → ℝ)) (cur : ℕ → ℝ) : Py (ℕ → ℝ) :=
  if hist = [] then .ok cur
  else
    let co := min order hist.length
    match smoothWin co with
    | [] => .error .indexError
    | w0 :: ws => .ok fun b => w0 * cur b + ∑ k ∈ Finset.Ico 1 co.toNat, (w0 :: ws).getD k 0 * (hist.getD (hist.length - k) fun _ => 0) b

/-- `parsa.py` 899-932 for one loudspeaker: the block in every band filtered, scaled and filtered again backwards; sum over the bands. -/
noncomputable def zeroPhase (B : ℕ) (irs : List (List ℝ)) (gains : ℕ → ℝ) (blk : ℕ → ℝ) (m : ℕ) : ℝ :=
  ((List.range irs.length).map fun b : ℕ =>
    ((convFull (((convFull ((List.range B).map blk) (irs.getD b [])).map (gains b * ·)).reverse) (irs.getD b [])).reverse).getD m 0).sum

/-- The loop over the blocks (`parsa.py` 838-935): list of smoothed gains so far and output buffer. -/
noncomputable def post2Block {L : ℕ} (S B : ℕ) (fs : ℝ) (g : ℕ → ℕ → ℝ) (width : ℕ → ℝ) (irs : List (List ℝ)) (att : Fin L → ℝ) (x : Fin L → List ℝ) (p : List ℝ)
    (order : ℤ) (st : List (ℕ → ℝ) × (Fin L → ℕ → ℝ)) (start : ℕ) : Py (List (ℕ → ℝ) × (Fin L → ℕ → ℝ)) :=
  let raw := rawGain B fs g width att x p start
  (smoothGains order st.1 raw).bind fun smoothed =>
    (olaAdd (S + 4 * B) st.2 ((start : ℤ) + B - B) (B + 2 * B) fun l => zeroPhase B irs raw fun m => blockWin B m * padded B (x l) (start + m)).bind fun buf =>
      .ok (st.1 ++ [smoothed], buf)

/-- `parsa.py` 940-941: the condition of the truncation warning. -/
noncomputable def warns2 {L : ℕ} (B : ℕ) (buf : Fin L → ℕ → ℝ) : Prop :=
  (∑ l, ∑ u ∈ Finset.range (2 * B), |buf l u|) + ∑ l, |buf l (2 * B)| > 10e-3

/-- Possible results of `sdm_post_equalization2` (`parsa.py` 786-946) with block size `B`, the gains `g` and bandwidths `width` of the filter bank and the
responses `irs` (of `B + 1` taps) that `firwin2` returned: signals and list of gains.
Simplification: three or more bands; `B ≥ 1`. -/
inductive PostEq2 {L : ℕ} (S B : ℕ) (fs : ℝ) (g : ℕ → ℕ → ℝ) (width : ℕ → ℝ) (irs : List (List ℝ)) (att : Fin L → ℝ) (x : Fin L → List ℝ) (p : List ℝ) (order : ℤ) :
    Py (PostOut L × List (ℕ → ℝ)) → Prop
  | badLength (hp : p.length ≠ S) : PostEq2 S B fs g width irs att x p order (.error .assertionError)
  | evenTaps (hp : p.length = S) (h : (B + 1) % 2 = 0) : PostEq2 S B fs g width irs att x p order (.error .assertionError)
  | run (hp : p.length = S) (h : (B + 1) % 2 = 1) (starts : List ℕ) (hs : Starts (S + 2 * B) B (B / 2) 0 starts) :
      PostEq2 S B fs g width irs att x p order
        ((starts.foldlM (post2Block S B fs g width irs att x p order) ([], fun _ _ => 0)).bind fun st =>
          let out := truncate (S + 4 * B) B st.2
          if ∀ l, (out l).length = S then .ok (⟨st.2, out, warns2 B st.2⟩, pySlice st.1 2 (-2)) else .error .assertionError)

end Verif.Parsa
