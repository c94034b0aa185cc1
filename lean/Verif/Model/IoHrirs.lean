import Verif.Model.Signals
import Verif.Model.Grids

/-!
Model of `/repo/spaudiopy/io.py` 114-190: `load_hrirs`.  Line numbers refer to that file.
-/

namespace Verif.Io

open Verif.Sig Verif.Grids Real

/-- `row[i] = v` for one row of an array (`io.py` 152-157): negative indices count from the end, others raise `IndexError`. -/
def setIdx (row : List ℝ) (i : ℤ) (v : ℝ) : Py (List ℝ) :=
  if 0 ≤ i ∧ i < row.length then .ok (row.set i.toNat v)
  else if i < 0 ∧ -(row.length : ℤ) ≤ i then .ok (row.set (row.length + i).toNat v)
  else .error .indexError

/-- `a_l`, with `s = 1`, and `a_r`, with `s = -1`, at one direction (`io.py` 150-151). -/
noncomputable def earGain (s azi zen : ℝ) : ℝ := 0.5 * (1 + cos (azi - s * (π / 2))) * sin zen

/-- One row of `hrir_l` (with `own = a_l`, `other = a_r`) or `hrir_r` (the other way round), `io.py` 144-157. -/
noncomputable def dummyRow (own other fs : ℝ) : Py (List ℝ) :=
  (setIdx (List.replicate 256 0) (pyInt (other * 0.75e-3 * fs + 10)) 1).bind fun row =>
    let row := row.map (· * (own + 0.1))
    setIdx row (pyInt (own * 5)) (row.getD 0 0)

/-- The rows of both ears at every direction (`io.py` 150-157).  Simplification: all four assignments can only raise `IndexError`, so
the order in which numpy checks them does not matter. -/
noncomputable def dummyRows (azi zen : List ℝ) (fs : ℝ) : Py (List (List ℝ) × List (List ℝ)) :=
  ((azi.zip zen).mapM fun d => dummyRow (earGain 1 d.1 d.2) (earGain (-1) d.1 d.2) fs).bind fun l =>
    ((azi.zip zen).mapM fun d => dummyRow (earGain (-1) d.1 d.2) (earGain 1 d.1 d.2) fs).map fun r => (l, r)

/-- `io.py` 143-157, 188: the dummy set. -/
noncomputable def dummyHrirs (leggauss : ℕ → List ℝ × List ℝ) (fs : ℝ) : Py HRIRs :=
  let azi := (gauss leggauss 15).1
  let zen := (gauss leggauss 15).2.1
  (dummyRows azi zen fs).bind fun lr =>
    HRIRs.init ⟨[azi.length, 256], lr.1.flatten⟩ ⟨[azi.length, 256], lr.2.flatten⟩ ⟨[azi.length], azi⟩ ⟨[zen.length], zen⟩ fs

/-- The variables of a MATLAB file that are looked up (`io.py` 177-186).  Simplification: `fs` and `SamplingRate` hold one number. -/
structure MatFile where
  hrirL : Option (NDArray ℝ)
  hrirR : Option (NDArray ℝ)
  azi : Option (NDArray ℝ)
  zen : Option (NDArray ℝ)
  fs : Option ℝ
  samplingRate : Option ℝ

/-- `mat[key]` (`io.py` 178-186). -/
def key {α : Type _} : Option α → Py α
  | none => .error .keyError
  | some a => .ok a

/-- `io.py` 180-183: `int(mat['fs'])`, or else `int(mat['SamplingRate'])`. -/
noncomputable def matFs (m : MatFile) : Py ℝ :=
  match m.fs with
  | some f => .ok (pyInt f)
  | none => (key m.samplingRate).map fun f => ((pyInt f : ℤ) : ℝ)

/-- `io.py` 177-188. -/
noncomputable def matHrirs (m : MatFile) : Py HRIRs :=
  (key m.hrirL).bind fun l => (key m.hrirR).bind fun r => (matFs m).bind fun fs => (key m.azi).bind fun azi => (key m.zen).bind fun zen =>
    HRIRs.init l.squeeze r.squeeze azi.squeeze zen.squeeze fs

/-- The argument `filename` (`io.py` 114): `'dummy'`, `None`, or the name of a file with the content of that file (or the exception that
`loadmat` raises). -/
inductive HrirSource
  | dummy
  | default
  | file (content : Py MatFile)

/-- The default file (`io.py` 168-173): the content found, or – if there is none, `FileNotFoundError` – what there is after
`get_default_hrirs`.  `found` and `generated` stand for the file system and that function. -/
def defaultFile (found generated : Py MatFile) : Py MatFile :=
  match found with
  | .error .osError => generated
  | r => r

/-- `io.py` 114-190 `load_hrirs`. -/
noncomputable def loadHrirs (leggauss : ℕ → List ℝ × List ℝ) (found generated : ℝ → Py MatFile) (fs : ℝ) (source : HrirSource) : Py HRIRs :=
  open Classical in
  (match source with
    | .dummy => dummyHrirs leggauss fs
    | .default =>
      if ¬ (fs = 44100 ∨ fs = 48000 ∨ fs = 96000) then .error .notImplementedError
      else (defaultFile (found fs) (generated fs)).bind matHrirs
    | .file content => content.bind matHrirs).bind fun h => if h.fs = fs then .ok h else .error .assertionError

end Verif.Io
