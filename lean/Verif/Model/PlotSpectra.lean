import Verif.Model.Process
import Verif.Model.IoDefault

/-!
Model of the data drawn by `/repo/spaudiopy/plot.py` 25-149 (`spectrum`, `freq_resp`, `transfer_function`).

A plot is the list of drawn curves, axis limits and legend entries; colours, titles and fonts are not modelled.
-/

namespace Verif.Plot
open Real Verif.Utils

/-- `np.max` of the values of all curves (`plot.py` 116): `ValueError` without values. -/
noncomputable def npMax : List ℝ → Py ℝ
  | [] => .error .valueError
  | x :: xs => .ok (xs.foldl max x)

/-- The argument `ylim` of `freq_resp` (`plot.py` 65, 114-117): an integer or a pair. -/
inductive YLim
  | below (range : ℤ)
  | limits (lo hi : ℝ)

/-- The argument `labels` of `freq_resp` (`plot.py` 65, 84-86). -/
inductive Labels
  | none
  | single (s : String)
  | list (l : List String)
  | tuple (l : List String)

/-- What `freq_resp` draws, and the contents of the caller's label list afterwards (`plot.py` 101-125). -/
structure Curves where
  freq : List ℝ
  curves : List (List ℝ)
  ylim : ℝ × ℝ
  legend : Option (List (Option String))
  callerLabels : Option (List String)

/-- `plot.py` 110: the text of the extra legend entry. -/
def smoothingLabel (n : ℤ) : String := "$\\frac{" ++ toString n ++ "}{8}$ octave smoothing"

/-- `plot.py` 90-92: magnitude in dB, limited from below. -/
noncomputable def dbClipped (x : ℝ) : ℝ := db (max |x| 10e-15)

/-- `plot.py` 90-99: the curves, in dB and smoothed as requested. -/
noncomputable def respCurves (mag : List (List ℝ)) (todb : Bool) (smoothing : Option ℤ) : List (List ℝ) :=
  let mag := if todb then mag.map fun a => a.map dbClipped else mag
  match smoothing with
  | some n => mag.map fun a => Process.fracOctaveSmoothing a n true
  | none => mag

/-- `plot.py` 84-86, 105-112: the legend and the caller's list after the call; `labels.append` of a tuple is an `AttributeError`. -/
def legendOf (labels : Labels) (count : ℕ) (smoothing : Option ℤ) : Py (Option (List (Option String)) × Option (List String)) :=
  match labels, smoothing with
  | .none, none => .ok (none, none)
  | .none, some n => .ok (some (List.replicate count none ++ [some (smoothingLabel n)]), none)
  | .single s, none => .ok (some [some s], none)
  | .single s, some n => .ok (some [some s, some (smoothingLabel n)], none)
  | .list l, none => .ok (some (l.map some), some l)
  | .list l, some n => .ok (some ((l ++ [smoothingLabel n]).map some), some (l ++ [smoothingLabel n]))
  | .tuple l, none => .ok (some (l.map some), none)
  | .tuple _, some _ => .error .attributeError

/-- `plot.py` 64-125 `freq_resp` for a list of arrays.  Simplification: the axis limits in frequency and the title are left out. -/
noncomputable def freqResp (freq : List ℝ) (mag : List (List ℝ)) (todb : Bool := true) (smoothing : Option ℤ := none) (ylim : YLim := .below 30)
    (labels : Labels := .none) : Py Curves :=
  if ∀ a ∈ mag, a.length = freq.length then
    let curves := respCurves mag todb smoothing
    (legendOf labels curves.length smoothing).bind fun lg =>
      (match ylim with
        | .below r => (npMax curves.flatten).map fun ymax : ℝ => (ymax - (r : ℝ), ymax)
        | .limits lo hi => (.ok (lo, hi) : Py (ℝ × ℝ))).map fun yl =>
          { freq := freq, curves := curves, ylim := yl, legend := lg.1, callerLabels := lg.2 }
  else .error .assertionError

/-- `np.fft.rfftfreq(bins, d=1/fs)` (`plot.py` 40). -/
noncomputable def rfftfreq (n : ℕ) (fs : ℝ) : List ℝ := (List.range (n / 2 + 1)).map fun k : ℕ => k * fs / n

/-- `plot.py` 45-58: the single sided amplitude spectrum of one signal, `bins` being the length of the first one. -/
noncomputable def magSpectrum (bins : ℕ) (scaleMag : Bool) (s : List ℝ) : Py (List ℝ) :=
  if s = [] then .error .valueError
  else
    let mag := (Process.rfftRow s).map fun z => ‖z‖ / bins
    let mag := mag.mapIdx fun i v => if i = 0 then v else v * 2
    .ok (if scaleMag then mag.map fun v => v * bins / 2 else mag)

/-- `plot.py` 25-61 `spectrum` of a list of one-dimensional signals; `rfftfreq` divides by the number of samples. -/
noncomputable def spectrum (x : List (List ℝ)) (fs : ℝ) (scaleMag : Bool := false) (todb : Bool := true) (smoothing : Option ℤ := none)
    (ylim : YLim := .below 30) (labels : Labels := .none) : Py Curves :=
  match x with
  | [] => .error .indexError
  | x0 :: _ =>
    if x0.length = 0 then .error .zeroDivisionError
    else (x.mapM (magSpectrum x0.length scaleMag)).bind fun specs => freqResp (rfftfreq x0.length fs) specs todb smoothing ylim labels

/-- `np.clip(H, 10e-15, None)` of a complex number (`plot.py` 131): numpy orders complex numbers by real part, then imaginary part. -/
noncomputable def clipC (z : ℂ) : ℂ := if 10e-15 < z.re ∨ (z.re = 10e-15 ∧ 0 ≤ z.im) then z else (10e-15 : ℝ)

/-- `np.unwrap` (`plot.py` 141), with the previous input, the accumulated correction and the remaining phases. -/
noncomputable def unwrapFrom (prev corr : ℝ) : List ℝ → List ℝ
  | [] => []
  | p :: ps =>
    let dd := p - prev
    let m := pyMod (dd + π) (2 * π) - π
    let m := if m = -π ∧ 0 < dd then π else m
    let c := corr + if |dd| < π then 0 else m - dd
    (p + c) :: unwrapFrom p c ps

/-- `np.unwrap` (`plot.py` 141). -/
noncomputable def unwrap : List ℝ → List ℝ
  | [] => []
  | p :: ps => p :: unwrapFrom p 0 ps

/-- `plot.py` 128-149 `transfer_function` of complex values: the drawn magnitudes in dB and the drawn phases. -/
noncomputable def transferFunction (H : List ℂ) : List ℝ × List ℝ :=
  let H := H.map clipC
  (H.map fun z => db ‖z‖, unwrap (H.map Complex.arg))

end Verif.Plot
