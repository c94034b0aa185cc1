import Verif.Model.IoHrirs
import Verif.Model.Process
import Verif.Model.MagLs
import Verif.Model.SphComplex

/-!
Model of `/repo/spaudiopy/io.py` 193-280 `get_default_hrirs` and `/repo/spaudiopy/process.py` 99-121 `resample_spectrum`.
-/

namespace Verif.Io

open Verif.Sig Verif.Grids Verif.Sph Verif.Process Verif.Decoder Real

/-- The file of measured transfer functions (`io.py` 212-235): sampling rate and, for both ears, SH coefficients (rows) at every
frequency (columns).  Simplification: the file exists, or the download has succeeded. -/
structure FabianFile where
  rate : ℝ
  KL : ℕ
  BL : ℕ
  shL : Matrix (Fin KL) (Fin BL) ℂ
  KR : ℕ
  BR : ℕ
  shR : Matrix (Fin KR) (Fin BR) ℂ

/-- `io.py` 237-239: the grid.  A missing angle of two makes `sph_harm` raise `TypeError` (242-243). -/
noncomputable def defaultGrid (leggauss : ℕ → List ℝ × List ℝ) (azi zen : Option (List ℝ)) : Py (List ℝ × List ℝ) :=
  match azi, zen with
  | none, none => .ok ((gauss leggauss 35).1, (gauss leggauss 35).2.1)
  | some a, some z => .ok (a, z)
  | _, _ => .error .typeError

/-- `io.py` 242-243: transfer functions of one ear at the given directions. -/
noncomputable def earHrtf {K B : ℕ} (sh : Matrix (Fin K) (Fin B) ℂ) (dirs : List (ℝ × ℝ)) : Py (Matrix (Fin dirs.length) (Fin B) ℂ) :=
  inverseShtC sh (fun i => dirs[i].1) (fun i => dirs[i].2) none

/-- `np.fft.irfft` of every row (`io.py` 246-247, `process.py` 118): `2 (B - 1)` samples; a transform of no samples raises
`ValueError`. -/
noncomputable def irfftRows {G B : ℕ} (H : Matrix (Fin G) (Fin B) ℂ) : Py (List (List ℝ)) :=
  if B < 2 then .error .valueError
  else .ok (List.ofFn fun g => (List.range (2 * (B - 1))).map fun t : ℕ => irfftAt B (fun k => if h : k < B then H g ⟨k, h⟩ else 0) t)

/-- What `savemat` writes (`io.py` 262-279): vectors become rows of a matrix. -/
def hrirFile (l r : List (List ℝ)) (azi zen : List ℝ) (fs : ℝ) : MatFile where
  hrirL := some ⟨[l.length, (l.headD []).length], l.flatten⟩
  hrirR := some ⟨[r.length, (r.headD []).length], r.flatten⟩
  azi := some ⟨[1, azi.length], azi⟩
  zen := some ⟨[1, zen.length], zen⟩
  fs := some fs
  samplingRate := none

/-- The resampled files (`io.py` 250-260, 268-279); `order` are the completion orders of the pools. -/
noncomputable def resampledFile (rs : Resampler) (l r : List (List ℝ)) (azi zen : List ℝ) (rate fs : ℝ) (jobs : Option ℤ) (cpus : ℕ)
    (order : List ℕ × List ℕ) : MatFile :=
  let res := resampleHrirs rs l r (l.headD []).length rate fs jobs cpus order.1 order.2
  hrirFile (res.1.map fun o => o.getD []) (res.2.1.map fun o => o.getD []) azi zen fs

/-- `io.py` 193-280 `get_default_hrirs`: the contents of the files for 44100, 48000 and 96000 Hz. -/
noncomputable def getDefaultHrirs (leggauss : ℕ → List ℝ × List ℝ) (rs : Resampler) (file : FabianFile) (azi zen : Option (List ℝ))
    (jobs : Option ℤ) (cpus : ℕ) (order48 order96 : List ℕ × List ℕ) : Py (MatFile × MatFile × MatFile) :=
  (defaultGrid leggauss azi zen).bind fun grid =>
  (Sph.pairDirs grid.1 grid.2).bind fun dirs =>
  (earHrtf file.shL dirs).bind fun hl =>
  (earHrtf file.shR dirs).bind fun hr =>
  if file.BL ≠ file.BR then .error .assertionError
  else (irfftRows hl).bind fun l => (irfftRows hr).bind fun r =>
    .ok (hrirFile l r grid.1 grid.2 44100,
      resampledFile rs l r grid.1 grid.2 (pyInt file.rate) 48000 jobs cpus order48,
      resampledFile rs l r grid.1 grid.2 (pyInt file.rate) 96000 jobs cpus order96)

/-- The default file for `fs` that exists after a call (`io.py` 168-173, 262-279). -/
noncomputable def fileFor (files : Py (MatFile × MatFile × MatFile)) (fs : ℝ) : Py MatFile :=
  open Classical in
  files.bind fun f => if fs = 44100 then .ok f.1 else if fs = 48000 then .ok f.2.1 else if fs = 96000 then .ok f.2.2 else .error .osError

end Verif.Io

namespace Verif.Process
open Verif.Sig Verif.Decoder

/-- `np.fft.rfft` of one row (`process.py` 120). -/
noncomputable def rfftRow (x : List ℝ) : List ℂ :=
  (List.range (x.length / 2 + 1)).map fun k : ℕ => Parsa.dft x.length x.length (fun m => x.getD m 0) k

/-- `process.py` 99-121 `resample_spectrum` along the last axis for `R` stacked spectra of `B` bins.  `np.fft.irfft` rejects fewer than
two bins (`ValueError`), `resampy` an empty result. -/
noncomputable def resampleSpectrum {R B : ℕ} (rs : Resampler) (X : Matrix (Fin R) (Fin B) ℂ) (fs fsNew : ℝ) : Py (NDArray ℂ) :=
  (Io.irfftRows X).bind fun rows =>
    if rs.len fs fsNew (2 * (B - 1)) < 1 then .error .valueError
    else .ok (NDArray.squeeze ⟨[R, rs.len fs fsNew (2 * (B - 1)) / 2 + 1], (rows.map fun r => rfftRow (rs.run fs fsNew r)).flatten⟩)

end Verif.Process
