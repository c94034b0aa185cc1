import Verif.Model.PlotShapes

/-!
Model of the figure of `decoder_performance` (`/repo/spaudiopy/plot.py` 874-1006): the lattice of directions, the gains of the selected renderer and
what is handed to the drawing routines.  The measures of one direction are in `Model/PlotShapes.lean`.
-/

namespace Verif.Plot
open Real Verif.Utils Verif.Sph Verif.Decoder

/-- `np.arange(start, stop, step)` (`plot.py` 892, 893) for a positive step. -/
noncomputable def npArange (start stop step : ℝ) : List ℝ := (List.range ⌈(stop - start) / step⌉.toNat).map fun k : ℕ => start + k * step

/-- `plot.py` 892: the azimuths of the lattice, `step` in radians. -/
noncomputable def perfAzi (step : ℝ) : List ℝ := npArange (-π) (π + step) step

/-- `plot.py` 893: the zenith angles of the lattice, `step` in radians. -/
noncomputable def perfZen (step : ℝ) : List ℝ := npArange 0 (π + step) step

/-- `plot.py` 894-895: `np.meshgrid`, raveled: one row of azimuths per zenith angle. -/
def meshDirs (azi zen : List ℝ) : List (ℝ × ℝ) := zen.flatMap fun z => azi.map fun a => (a, z)

/-- `plot.py` 895-896: the point of a lattice direction. -/
noncomputable def dirPoint (d : ℝ × ℝ) : Vec3 := ![(sph2cart d.1 d.2).1, (sph2cart d.1 d.2).2.1, (sph2cart d.1 d.2).2.2]

/-- `plot.py` 904-905: the columns of `Y_in`. -/
noncomputable def perfSh (N : ℕ) (dirs : List (ℝ × ℝ)) : Matrix (Fin ((N + 1) ^ 2)) (Fin dirs.length) ℝ :=
  fun q i => shVec N (dirs.get i).1 (dirs.get i).2 q

/-- `plot.py` 899-903: the order of the Ambisonic signals. -/
noncomputable def perfOrder {L : ℕ} (lstsq : Mat3 → Mat3) (N : Option ℕ) (h : Hull L) : Py ℕ :=
  match N with
  | some n => .ok n
  | none => getCharacteristicOrder lstsq h

/-- `plot.py` 898-932: one row of gains per direction and the setup afterwards.  `N` is the keyword argument `N_sph` (a `TypeError` for renderers that do not
take it); other keyword arguments are left at their defaults. -/
noncomputable def perfGains {L : ℕ} (lstsq : Mat3 → Mat3) (pinv : {m n : ℕ} → Matrix (Fin m) (Fin n) ℝ → Matrix (Fin n) (Fin m) ℝ)
    (svd : {m n : ℕ} → Matrix (Fin m) (Fin n) ℝ → Matrix (Fin m) (Fin m) ℝ × Matrix (Fin n) (Fin n) ℝ) (r : Renderer) (N : Option ℕ) (s : Setup L)
    (dirs : List (ℝ × ℝ)) : Py (List (List ℝ)) × Setup L :=
  let src : List Vec3 := dirs.map dirPoint
  let cols {R : ℕ} (o : Matrix (Fin R) (Fin dirs.length) ℝ) : List (List ℝ) := List.ofFn fun i => List.ofFn fun l => o l i
  match r with
  | .vbap => if N.isSome then (.error .typeError, s) else vbap lstsq 2 src none false s
  | .vbip => if N.isSome then (.error .typeError, s) else vbip lstsq 2 src none false s
  | .nls => if N.isSome then (.error .typeError, s) else ((src.mapM (nearestLoudspeaker s.toHull)).map fun rows => rows.map List.ofFn, s)
  | .allrap =>
    let r := allrap lstsq (fun i : Fin dirs.length => dirPoint (dirs.get i)) N s
    (r.1.map List.ofFn, r.2)
  | .allrap2 =>
    let r := allrap2 lstsq (fun i : Fin dirs.length => dirPoint (dirs.get i)) N s
    (r.1.map List.ofFn, r.2)
  | .allrad =>
    match perfOrder lstsq N s.toHull with
    | .error e => (.error e, s)
    | .ok n =>
      let r := allrad lstsq (perfSh n dirs) (some n) s
      (r.1.map fun sig => List.ofFn fun i => sig.map fun x => x i, r.2)
  | .allrad2 =>
    match perfOrder lstsq N s.toHull with
    | .error e => (.error e, s)
    | .ok n =>
      let r := allrad2 lstsq (perfSh n dirs) (some n) s
      (r.1.map fun sig => List.ofFn fun i => sig.map fun x => x i, r.2)
  | .epad => ((perfOrder lstsq N s.toHull).bind fun n => (epad lstsq svd (perfSh n dirs) s.toHull (some n)).map cols, s)
  | .mad => ((perfOrder lstsq N s.toHull).bind fun n => (mad lstsq pinv (perfSh n dirs) s.toHull (some n)).map cols, s)
  | .sad => ((perfOrder lstsq N s.toHull).bind fun n => (sad lstsq (perfSh n dirs) s.toHull (some n)).map cols, s)

/-- What `decoder_performance` draws (`plot.py` 949-990): the vertices of the mesh (azimuth, zenith) with their measures, the upper ends of the four colour scales
(the lower ends are zero), the marked loudspeakers, and the limits of the axes. -/
structure PerfFigure where
  vertices : List ((ℝ × ℝ) × Measures)
  maxAmplitude : ℝ
  maxEnergy : ℝ
  maxSpread : ℝ
  maxError : ℝ
  markers : List (ℝ × ℝ)
  xlim : ℝ × ℝ
  ylim : ℝ × ℝ

/-- `plot.py` 935-947 for one row of gains.  `G / hull.d` needs one gain per loudspeaker (`ValueError`).  Simplification: a single gain, which numpy would repeat,
counts as a mismatch. -/
noncomputable def rowMeasures {L : ℕ} (h : Hull L) (d : ℝ × ℝ) (g : List ℝ) : Py Measures :=
  if g.length = L then .ok (measures h (dirPoint d) fun l => g.getD l 0) else .error .valueError

/-- `plot.py` 959-960: the upper end of the colour scale of amplitude and energy, `np.max([1.0, np.max(_data)])`. -/
noncomputable def scaleTop (data : List ℝ) : ℝ := data.foldl max 1

/-- `plot.py` 874-1006 `decoder_performance`; the steps are in degrees.  Also returned is the setup, which the renderer may have changed.
Simplification: positive steps; labels, ticks and titles are left out. -/
noncomputable def decoderPerformance {L : ℕ} (lstsq : Mat3 → Mat3) (pinv : {m n : ℕ} → Matrix (Fin m) (Fin n) ℝ → Matrix (Fin n) (Fin m) ℝ)
    (svd : {m n : ℕ} → Matrix (Fin m) (Fin n) ℝ → Matrix (Fin m) (Fin m) ℝ × Matrix (Fin n) (Fin n) ℝ) (s : Setup L) (name : String) (aziSteps eleSteps : ℝ)
    (showLs : Bool) (N : Option ℕ) : Py PerfFigure × Setup L :=
  let sa := aziSteps * (π / 180)
  let se := eleSteps * (π / 180)
  let dirs := meshDirs (perfAzi sa) (perfZen se)
  match rendererOf name with
  | .error e => (.error e, s)
  | .ok r =>
    let G := perfGains lstsq pinv svd r N s dirs
    (G.1.bind fun rows => ((dirs.zip rows).mapM fun x => rowMeasures s.toHull x.1 x.2).map fun ms =>
      { vertices := dirs.zip ms
        maxAmplitude := scaleTop (ms.map Measures.amplitude)
        maxEnergy := scaleTop (ms.map Measures.energy)
        maxSpread := 90
        maxError := 90
        markers := if showLs then List.ofFn fun l : Fin L =>
            let p := cart2sph (s.points l 0 / s.d l) (s.points l 1 / s.d l) (s.points l 2 / s.d l) false false
            (p.1, p.2.1)
          else []
        xlim := (-π - sa / 2, π + sa / 2)
        ylim := (0 - se / 2, π + se / 2) }, G.2)

end Verif.Plot
