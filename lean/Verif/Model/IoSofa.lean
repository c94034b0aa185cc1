import Verif.Model.IoHrirs
import Verif.Model.SphComplex

/-!
Model of `/repo/spaudiopy/io.py` 283-400: `load_sofa_data`, `load_sofa_hrirs`, `sofa_to_sh`, `load_sdm`.  Line numbers refer to that file.
-/

namespace Verif.Io

open Verif.Sig Real

/-- The variables of a SOFA file that are looked up (`io.py` 316-319).  Simplification: other variables do not disturb `np.squeeze`. -/
structure SofaFile where
  samplingRate : Option (NDArray ℝ)
  ir : Option (NDArray ℝ)
  sourcePosition : Option (NDArray ℝ)

/-- `io.py` 283-290 `load_sofa_data`: every variable is squeezed. -/
def loadSofaData (f : SofaFile) : SofaFile where
  samplingRate := f.samplingRate.map NDArray.squeeze
  ir := f.ir.map NDArray.squeeze
  sourcePosition := f.sourcePosition.map NDArray.squeeze

/-- `int(a)` of an array (`io.py` 317, 399): only arrays with one element, otherwise `TypeError`. -/
noncomputable def arrInt (a : NDArray ℝ) : Py ℤ :=
  match a.data with
  | [x] => .ok (pyInt x)
  | _ => .error .typeError

/-- `grid[:, c]` (`io.py` 320-322). Simplification: an array of three or more dimensions fails at the comparison (`ValueError`). -/
def sofaColumn (a : NDArray ℝ) (c : ℕ) : Py (List ℝ) :=
  match a.shape with
  | [M, C] => if c < C then .ok ((List.range M).map fun g => a.data.getD (g * C + c) 0) else .error .indexError
  | _ :: _ :: _ :: _ => .error .valueError
  | _ => .error .indexError

/-- `irs[:, r, :]` (`io.py` 324-325).  With more than three dimensions the `HRIRs` class rejects the result (`AssertionError`). -/
def sofaPlane (a : NDArray ℝ) (r : ℕ) : Py (NDArray ℝ) :=
  match a.shape with
  | [M, R, T] => if r < R then .ok ⟨[M, T], (List.range M).flatMap fun g => (List.range T).map fun t => a.data.getD ((g * R + r) * T + t) 0⟩ else .error .indexError
  | _ :: R :: _ :: _ :: _ => if r < R then .error .assertionError else .error .indexError
  | _ => .error .indexError

/-- `np.deg2rad` (`io.py` 321-322), without the modulus of the function of the same name in `utils.py`. -/
noncomputable def sofaDeg2rad (x : ℝ) : ℝ := x * (π / 180)

/-- The mean absolute deviation in `io.py` 320; `none` is the `nan` of an empty column. -/
noncomputable def meanDeviation (l : List ℝ) : Option ℝ :=
  if l.length = 0 then none else some ((l.map fun x => |x - l.sum / l.length|).sum / l.length)

/-- `assert x < 0.1` (`io.py` 320), false of `nan`. -/
noncomputable def radiusOk (x : Option ℝ) : Prop := ∃ v, x = some v ∧ v < 0.1

/-- `io.py` 293-327 `load_sofa_hrirs`; the argument is the content of the file, or the exception that opening it raises. -/
noncomputable def loadSofaHrirs (content : Py SofaFile) : Py HRIRs :=
  open Classical in
  (content.map loadSofaData).bind fun s =>
    ((key s.samplingRate).bind arrInt).bind fun fs => (key s.ir).bind fun irs => (key s.sourcePosition).bind fun grid =>
      (sofaColumn grid 2).bind fun r =>
        if ¬ radiusOk (meanDeviation r) then .error .assertionError
        else (sofaColumn grid 0).bind fun az => (sofaColumn grid 1).bind fun el =>
          let azi := az.map sofaDeg2rad
          let zen := el.map fun e => π / 2 - sofaDeg2rad e
          if ¬ (∀ z ∈ zen, z > -10e-6) then .error .assertionError
          else (sofaPlane irs 0).bind fun left => (sofaPlane irs 1).bind fun right =>
            HRIRs.init left.squeeze right.squeeze ⟨[azi.length], azi⟩ ⟨[zen.length], zen⟩ (fs : ℤ)

/-- The array returned by `sofa_to_sh` (`io.py` 354): left and right coefficients. -/
inductive SofaSh
  | real (left right : List (List ℝ))
  | complex (left right : List (List ℂ))

/-- One ear of `Y_pinv @ irs` (`io.py` 354), real. -/
noncomputable def sofaEar {G K : ℕ} (P : Matrix (Fin K) (Fin G) ℝ) (a : Arr2) : List (List ℝ) :=
  (List.finRange K).map fun q => (List.range a.cols).map fun t : ℕ => ∑ g : Fin G, P q g * (a.rows.getD g []).getD t 0

/-- One ear of `Y_pinv @ irs` (`io.py` 354), complex. -/
noncomputable def sofaEarC {G K : ℕ} (P : Matrix (Fin K) (Fin G) ℂ) (a : Arr2) : List (List ℂ) :=
  (List.finRange K).map fun q => (List.range a.cols).map fun t : ℕ => ∑ g : Fin G, P q g * (((a.rows.getD g []).getD t 0 : ℝ) : ℂ)

/-- `io.py` 330-355 `sofa_to_sh`; `pinv`, `pinvC` are `np.linalg.pinv` of real and complex matrices. -/
noncomputable def sofaToSh (pinv : (m n : ℕ) → Matrix (Fin m) (Fin n) ℝ → Matrix (Fin n) (Fin m) ℝ)
    (pinvC : (m n : ℕ) → Matrix (Fin m) (Fin n) ℂ → Matrix (Fin n) (Fin m) ℂ) (content : Py SofaFile) (N : ℕ) (ty : Sph.ShType) : Py (SofaSh × ℝ) :=
  (loadSofaHrirs content).bind fun h =>
    let azi := fun g : Fin h.azi.length => h.azi.getD g 0
    let zen := fun g : Fin h.azi.length => h.zen.getD g 0
    match ty with
    | .other => .error .valueError
    | .real => .ok (.real (sofaEar (pinv _ _ (Sph.shMat N azi zen)) h.left) (sofaEar (pinv _ _ (Sph.shMat N azi zen)) h.right), h.fs)
    | .complex => .ok (.complex (sofaEarC (pinvC _ _ (Sph.shMatC N azi zen)) h.left) (sofaEarC (pinvC _ _ (Sph.shMatC N azi zen)) h.right), h.fs)

/-- The variables of an `SDM.mat` file that are looked up (`io.py` 382-399); `none` inside an array is `nan`. -/
structure SdmFile where
  hRef : Option (NDArray ℝ)
  p : Option (NDArray ℝ)
  azi : Option (NDArray (Option ℝ))
  phi : Option (NDArray (Option ℝ))
  zen : Option (NDArray (Option ℝ))
  theta : Option (NDArray (Option ℝ))
  fs : Option (NDArray ℝ)

/-- `try: mat[a] except KeyError: mat[b]`, squeezed (`io.py` 383-394). -/
def keyOr {α : Type _} (a b : Option (NDArray α)) : Py (NDArray α) :=
  match a with
  | some x => .ok x.squeeze
  | none => (key b).map NDArray.squeeze

/-- `a[np.isnan(a)] = v` (`io.py` 397-398). -/
def replaceNan (a : NDArray (Option ℝ)) (v : ℝ) : NDArray (Option ℝ) := { a with data := a.data.map fun x => some (x.getD v) }

/-- `io.py` 358-400 `load_sdm`: signal, azimuth, zenith and sampling rate. -/
noncomputable def loadSdm (content : Py SdmFile) (initNan : Bool) : Py (NDArray ℝ × NDArray (Option ℝ) × NDArray (Option ℝ) × ℤ) :=
  content.bind fun m => (keyOr m.hRef m.p).bind fun h => (keyOr m.azi m.phi).bind fun azi => (keyOr m.zen m.theta).bind fun zen =>
    let azi := if initNan then replaceNan azi 0 else azi
    let zen := if initNan then replaceNan zen (π / 2) else zen
    ((key m.fs).bind arrInt).map fun fs => (h, azi, zen, fs)

end Verif.Io
