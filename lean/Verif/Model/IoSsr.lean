import Verif.Model.IoAudio
import Verif.Model.Binaural
import Verif.Model.ParsaPar

/-!
Model of `/repo/spaudiopy/io.py` 403-515: `write_ssr_brirs_loudspeaker` and `write_ssr_brirs_sdm`.  Line numbers refer to that file.
-/

namespace Verif.Io

open Verif.Sig Verif.Decoder Verif.Parsa Real

/-- `io.py` 431-432, 496-497: append `.wav` unless the name ends with it. -/
def wavName (name : List Char) : List Char :=
  if pySlice name (-4) name.length = ['.', 'w', 'a', 'v'] then name else name ++ ['.', 'w', 'a', 'v']

/-- `ssr_brirs[k, :] = v` for a row of length `n` (`io.py` 442-444, 458-460, 505-507): a single value is broadcast. -/
def assignRow (n : ℕ) (v : List ℝ) : Py (List ℝ) :=
  if v.length = n then .ok v
  else
    match v with
    | [x] => .ok (List.replicate n x)
    | _ => .error .valueError

/-- The two rows of one angle (`io.py` 441-444, 457-460, 504-507). -/
def assignPair (n : ℕ) (lr : List ℝ × List ℝ) : Py (List (List ℝ)) :=
  (assignRow n lr.1).bind fun l => (assignRow n lr.2).map fun r => [l, r]

/-- `np.max(np.abs(x))` of a non-empty array (`io.py` 463-465, 510-512). -/
noncomputable def maxAbs (x : List ℝ) : ℝ := (x.map fun v => |v|).foldl max 0

/-- `io.py` 462-468, 509-515: normalise the 720 rows if needed and save the transposed array; `np.max` of no samples is a `ValueError`. -/
noncomputable def finishSsr (rows : List (List ℝ)) (fs : ℝ) : Py Saved :=
  if rows.flatten = [] then .error .valueError
  else
    let m := maxAbs rows.flatten
    let rows := if 1 < m then rows.map fun r => r.map fun v => v / m else rows
    saveAudio (.array (transposed rows)) (some fs)

/-- The loop over the angles (`io.py` 437-444, 500-507). -/
def ssrLoop (n : ℕ) (render : ℕ → Py (List ℝ × List ℝ)) : Py (List (List ℝ)) :=
  ((List.range 360).mapM fun a => (render a).bind (assignPair n)).map List.flatten

/-- Possible results of `pool.starmap(f, xs)` (`io.py` 447-452): the results in the order of the arguments, or the exception of some task
that raises. -/
inductive Starmap {α β : Type} (f : α → Py β) (xs : List α) : Py (List β) → Prop
  | ok (ys : List β) (h : xs.mapM f = .ok ys) : Starmap f xs (.ok ys)
  | raises (x : α) (hx : x ∈ xs) (e : PyErr) (h : f x = .error e) : Starmap f xs (.error e)

/-- Possible contents of `ssr_brirs` before normalisation (`io.py` 434-460), where `n` is its number of columns; for `jobs_count` below one
neither branch is taken and the zeros of line 434 remain. -/
inductive SsrRows (n : ℕ) (render : ℕ → Py (List ℝ × List ℝ)) (jobs : ℤ) : Py (List (List ℝ)) → Prop
  | serial (hj : jobs = 1) : SsrRows n render jobs (ssrLoop n render)
  | pool (hj : 1 < jobs) (r : Py (List (List ℝ × List ℝ))) (hr : Starmap render (List.range 360) r) :
      SsrRows n render jobs (r.bind fun lrs => (lrs.mapM (assignPair n)).map List.flatten)
  | untouched (hj : jobs < 1) : SsrRows n render jobs (.ok (List.replicate 720 (List.replicate n 0)))

/-- `np.deg2rad` (`io.py` 439, 450, 501), not the function of `utils.py`. -/
noncomputable def npDeg2rad (a : ℝ) : ℝ := a * (π / 180)

/-- Possible results – name and content of the file – of `write_ssr_brirs_loudspeaker` (`io.py` 403-468); `cpus` is
`multiprocessing.cpu_count()`.  Simplification: `hrirs` is given (with `None` it is the result of `load_hrirs`). -/
inductive WriteSsrLoudspeaker {L R S : ℕ} (cpus : ℕ) (name : List Char) (ls : Matrix (Fin R) (Fin S) ℝ) (h : Hull L) (fs : ℝ) (hr : HRIRs)
    (jobs : Option ℤ) : Py (List Char × Saved) → Prop
  | rate (hf : hr.fs ≠ fs) : WriteSsrLoudspeaker cpus name ls h fs hr jobs (.error .assertionError)
  | size (hf : hr.fs = fs) (hn : S + hr.left.cols < 1) : WriteSsrLoudspeaker cpus name ls h fs hr jobs (.error .valueError)
  | run (hf : hr.fs = fs) (hn : 1 ≤ S + hr.left.cols) (rows : Py (List (List ℝ)))
      (hrows : SsrRows (S + hr.left.cols - 1) (fun a => binauralize h ls fs (npDeg2rad a, 0) hr) (jobs.getD cpus) rows) :
      WriteSsrLoudspeaker cpus name ls h fs hr jobs (rows.bind fun rows => (finishSsr rows fs).map fun w => (wavName name, w))

/-- `parsa.render_bsdm` with its default `jobs_count=1` (`io.py` 502-503, `parsa.py` 530-564). -/
noncomputable def renderBsdm1 (p phi theta : List ℝ) (h : HRIRs) : Py (List ℝ × List ℝ) :=
  ((bsdmSamples p phi theta).mapM (bsdmTask h (p.length + h.numSamples - 1))).map (bsdmSerial (p.length + h.numSamples - 1))

/-- `io.py` 471-515 `write_ssr_brirs_sdm`.  Simplification: `hrirs` is given. -/
noncomputable def writeSsrSdm (name : List Char) (p phi theta : List ℝ) (fs : ℝ) (hr : HRIRs) : Py (List Char × Saved) :=
  open Classical in
  if hr.fs ≠ fs then .error .assertionError
  else if p.length + hr.left.cols < 1 then .error .valueError
  else (ssrLoop (p.length + hr.left.cols - 1) fun a => renderBsdm1 p (phi.map fun x => x - npDeg2rad a) theta hr).bind fun rows =>
    (finishSsr rows fs).map fun w => (wavName name, w)

end Verif.Io
