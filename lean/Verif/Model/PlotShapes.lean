import Verif.Model.Decoder
import Verif.Model.SphCore
import Verif.Model.SphComplex

/-!
Model of the data drawn by the remaining figures of `/repo/spaudiopy/plot.py`: `decoder_performance` (874-1006), `hull` (674-779), `polar` (836-871),
`sh_bar` (593-671), `sh_coeffs`, `sh_coeffs_subplot`, `sh_coeffs_overlay` (257-444).

As in `Model/PlotMaps.lean` only the data handed to the drawing routines are modelled.
-/

namespace Verif.Plot
open Real Verif.Utils Verif.Sph Verif.Decoder

/-! ### `decoder_performance` -/

/-- The renderers of `decoder_performance` (`plot.py` 898-932). -/
inductive Renderer
  | vbap | vbip | allrap | allrap2 | nls | allrad | allrad2 | epad | mad | sad
  deriving DecidableEq

/-- `plot.py` 907-932: the renderer named by the argument, in upper or lower case. -/
def rendererOf (s : String) : Py Renderer :=
  match s.toLower with
  | "vbap" => .ok .vbap
  | "vbip" => .ok .vbip
  | "allrap" => .ok .allrap
  | "allrap2" => .ok .allrap2
  | "nls" => .ok .nls
  | "allrad" => .ok .allrad
  | "allrad2" => .ok .allrad2
  | "epad" => .ok .epad
  | "mad" => .ok .mad
  | "sad" => .ok .sad
  | _ => .error .valueError

/-- The four measures of one grid direction (`plot.py` 935-947); `none` is `nan`. -/
structure Measures where
  amplitude : ℝ
  energy : ℝ
  spread : ℝ
  error : Option ℝ

/-- `plot.py` 935-947 for one grid direction `dir` (unit vector) with loudspeaker gains `g`. -/
noncomputable def measures {L : ℕ} (h : Hull L) (dir : Vec3) (g : Fin L → ℝ) : Measures :=
  let ls : Fin L → Vec3 := fun l c => h.points l c / h.d l
  let r := rE ls fun l => g l / h.d l ^ h.a
  { amplitude := ∑ l, g l
    energy := ∑ l, g l ^ 2
    spread := 2 * arccos (min (max r.2 0) 1) * 180 / π
    error := r.1.map fun v => arccos (min (max (∑ c, dir c * (v c / max r.2 10e-15)) (-1)) 1) * (180 / π) }

/-- `plot.py` 918-920, 935-947: the measures of nearest loudspeaker selection. -/
noncomputable def performanceNls {L : ℕ} (h : Hull L) (dir : Vec3) : Py Measures := (nearestLoudspeaker h dir).map (measures h dir)

/-- `plot.py` 904-905, 929-930, 935-947: the measures of the sampling decoder for the direction `(azi, zen)`, order `N`. -/
noncomputable def performanceSad {L : ℕ} (lstsq : Mat3 → Mat3) (h : Hull L) (N : ℕ) (azi zen : ℝ) : Py Measures :=
  (sad lstsq (fun q (_ : Fin 1) => shVec N azi zen q) h (some N)).map fun o =>
    measures h ![(sph2cart azi zen).1, (sph2cart azi zen).2.1, (sph2cart azi zen).2.2] fun l => o l 0

/-! ### `hull` -/

/-- What `hull` draws (`plot.py` 730-774): coloured faces, dashed faces, numbered loudspeakers and the axis limit. -/
structure HullPlot (L : ℕ) where
  faces : List (Face L × Option ℝ)
  dashed : List (Face L)
  labels : List (ℕ × Vec3)
  lim : ℝ

/-- `plot.py` 771-773: the axis limit. -/
noncomputable def axisLimit {L : ℕ} (p : Fin L → Vec3) : ℝ :=
  1.1 * max (((List.ofFn fun l => [|p l 0|, |p l 1|, |p l 2|]).flatten).foldl max 0) 1

/-- `plot.py` 674-779 `hull` for a `LoudspeakerSetup`; `simplices` defaults to those of the hull.  The list of colours handed to `set_facecolors` (749) is
matched with the drawn faces from the first on.  Simplification: at least one loudspeaker and one drawn face; a colour is its number on the scale. -/
noncomputable def hullPlot {L : ℕ} (h : Hull L) (simplices : Option (List (Face L))) (markInvalid : Bool) (drawLs : Bool) (axLim : Option ℝ)
    (color : Option (List ℝ)) : Py (HullPlot L) :=
  let simplices := simplices.getD h.simplices
  let valid := if markInvalid then simplices.filter fun s => isSimplexValid h.valid s else simplices
  let dashed := if markInvalid then simplices.filter fun s => !isSimplexValid h.valid s else []
  let labels := if drawLs then List.ofFn fun l : Fin L => ((l : ℕ), h.points l) else []
  let lim := axLim.getD (axisLimit h.points)
  match color with
  | none => .ok { faces := valid.map fun s => (s, none), dashed := dashed, labels := labels, lim := lim }
  | some c =>
    if c.length = simplices.length then
      .ok { faces := valid.zip (c.map some), dashed := dashed, labels := labels, lim := lim }
    else .error .assertionError

/-! ### `polar` -/

/-- What `polar` draws (`plot.py` 847-867): positive and negative curve over the same angles (`none` is a gap), lower and upper limit. -/
structure PolarPlot where
  pos : List (ℝ × Option ℝ)
  neg : List (ℝ × Option ℝ)
  rmin : ℝ
  rmax : ℝ

/-- `plot.py` 836-871 `polar` (float arrays).  Angles and radii of different number are rejected by `ax.plot` (`ValueError`).
Simplification: zero, at `-inf` dB, has the value of `Real.logb` at zero. -/
noncomputable def polar (theta r : List ℝ) (todb : Bool) (rlim : Option (ℝ × ℝ)) : Py PolarPlot :=
  if theta.length = r.length then
    let rpos := r.map fun v => if v < 0 then none else some v
    let rneg := r.map fun v => if v ≥ 0 then none else some v
    let f : ℝ → ℝ := if todb then fun v => db v else id
    let lim := rlim.getD (if todb then (-40, 0) else (0, 1))
    .ok { pos := theta.zip (rpos.map (Option.map f)), neg := theta.zip (rneg.map (Option.map fun v => f |v|)),
          rmin := lim.1, rmax := lim.2 + (if todb then 0.5 else 0.03) }
  else .error .valueError

/-! ### `sh_bar` -/

/-- `np.linspace(-0.25, 0.25, g)[j]` (`plot.py` 653). -/
noncomputable def barOffset (g j : ℕ) : ℝ := if g = 1 then -0.25 else -0.25 + j * (0.5 / (g - 1))

/-- `plot.py` 650-659: the ticks in drawing order; the position in the list is `fidx`. -/
noncomputable def barTicks (rows g : ℕ) : List ℝ := (List.range (rows / g)).flatMap fun i : ℕ => (List.range g).map fun j => (i : ℝ) + barOffset g j

/-- One bar of `sh_bar`: position, channel and value (`plot.py` 654-657). -/
structure BarCell where
  x : ℝ
  channel : ℕ
  value : ℝ

/-- `plot.py` 593-671 `sh_bar` for a `rows × L` array: ticks, cells and ticks of the channel axis.  No groups raise `ZeroDivisionError` (652). -/
noncomputable def shBar {R L : ℕ} (x : Matrix (Fin R) (Fin L) ℝ) (todb : Bool) (g : ℕ) : Py (List ℝ × List BarCell × List ℕ) :=
  if g = 0 then .error .zeroDivisionError
  else
    let val : ℕ → ℕ → ℝ := fun i l => if h : i < R ∧ l < L then (if todb then db (x ⟨i, h.1⟩ ⟨l, h.2⟩) else x ⟨i, h.1⟩ ⟨l, h.2⟩) else 0
    let ticks := barTicks R g
    .ok (ticks, ticks.zipIdx.flatMap fun t => (List.range L).map fun l => { x := t.1, channel := l, value := val t.2 l },
      (List.range ((shOrder L) + 1).toNat).map fun n => n ^ 2)

/-! ### `sh_coeffs`, `sh_coeffs_subplot`, `sh_coeffs_overlay` -/

/-- Coefficients handed to `sh_coeffs` (`plot.py` 267-270): `isComplex` is the type of the array. -/
structure Coeffs where
  isComplex : Bool
  F : List ℂ

/-- `plot.py` 269-270, 402-403: the type of harmonics, `true` for `'complex'`, `false` for `'real'` (`sh_matrix` rejects other types). -/
def shTypeOf (t : Option Bool) (F : Coeffs) : Bool := t.getD F.isComplex

/-- The function drawn (`plot.py` 277-278): the inverse transform at one direction; the order is that of the number of coefficients.
Simplification: at least one coefficient. -/
noncomputable def shFunction (t : Bool) (F : List ℂ) (azi zen : ℝ) : ℂ :=
  let N := (shOrder F.length).toNat
  match t with
  | false => ∑ q : Fin ((N + 1) ^ 2), (shVec N azi zen q : ℂ) * F.getD q 0
  | true => ∑ q : Fin ((N + 1) ^ 2), shVecC N azi zen q * F.getD q 0

/-- One point of the surface: position and phase, which is the colour (`plot.py` 279-300). -/
noncomputable def surfacePoint (f : ℂ) (azi zen : ℝ) : (ℝ × ℝ × ℝ) × ℝ := (sph2cart azi zen ‖f‖, Complex.arg f)

/-- `plot.py` 257-329 `sh_coeffs`: the surface over the grid of directions (272-275). -/
noncomputable def shCoeffs (grid : List (ℝ × ℝ)) (t : Option Bool) (F : Coeffs) : List ((ℝ × ℝ × ℝ) × ℝ) :=
  grid.map fun d => surfacePoint (shFunction (shTypeOf t F) F.F d.1 d.2) d.1 d.2

/-- `plot.py` 369-444 `sh_coeffs_overlay`: one surface (positions only) per entry; lines 402-403 keep the type of the first entry for all later ones. -/
noncomputable def shOverlay (grid : List (ℝ × ℝ)) (t : Option Bool) : List Coeffs → List (List (ℝ × ℝ × ℝ))
  | [] => []
  | F :: Fs => (shCoeffs grid (some (shTypeOf t F)) F).map Prod.fst :: shOverlay grid (some (shTypeOf t F)) Fs

/-- `plot.py` 332-366 `sh_coeffs_subplot`: the surface of every axis with its title.  `axs` is the number of axes if a list of axes is given.  Without, the figure
has one axis per entry, which `fig.subplots` (348) returns bare, not as an array, if there is only one: `enumerate` raises `TypeError`.  No entry at all
divides by zero (344).  Simplification: no figure is given. -/
noncomputable def shSubplot (grid : List (ℝ × ℝ)) (t : Option Bool) (Fs : List Coeffs) (titles : Option (List String)) (axs : Option ℕ) :
    Py (List (List ((ℝ × ℝ × ℝ) × ℝ) × Option String)) :=
  if Fs = [] then .error .zeroDivisionError
  else match axs with
    | none => if Fs.length = 1 then .error .typeError else draw Fs.length
    | some m => draw m
where
  draw (m : ℕ) : Py (List (List ((ℝ × ℝ × ℝ) × ℝ) × Option String)) :=
    (List.range m).mapM fun i => match Fs[i]?, titles with
      | none, _ => .error .indexError
      | some F, none => .ok (shCoeffs grid t F, none)
      | some F, some ts => match ts[i]? with
        | none => .error .indexError
        | some s => .ok (shCoeffs grid t F, some s)

end Verif.Plot
