import Verif.Model.SphCore
import Verif.Model.Interaural

/-!
Model of the data drawn by the maps of `/repo/spaudiopy/plot.py`: `sh_rms_map` (447-536), `spherical_function_map` (539-590), `doa` (1009-1095),
`hrirs_ild_itd` (1098-1183).

A drawn map is its list of points and values; contours, ticks and colour bars are not modelled.  Where the code writes into an array of the caller the model
returns that array, too.
-/

namespace Verif.Plot
open Real Verif.Utils Verif.Sph

/-! ### `sh_rms_map` -/

/-- `plot.py` 486: the block length. -/
def memBlock : ℕ := 2 ^ 16

/-- `plot.py` 487-493: the start indices of the `while` loop. -/
def blockStarts (S start : ℕ) : List ℕ :=
  if _h : start + memBlock ≤ S then start :: blockStarts S (start + memBlock) else []
termination_by S - start
decreasing_by
  have : 0 < memBlock := by decide
  omega

/-- RMS of the samples `start … start + len - 1` (`plot.py` 491-492, 496-497). -/
noncomputable def rmsRange (f : ℕ → ℝ) (start len : ℕ) : ℝ := |rms ((List.range len).map fun t => f (start + t))|

/-- `plot.py` 486-497: the value of one direction, from the beamformer signal `f` of `S` samples. -/
noncomputable def rmsValue (f : ℕ → ℝ) (S : ℕ) : ℝ :=
  if S > memBlock then
    let l := (blockStarts S 0).map fun s => rmsRange f s memBlock
    √((l.map fun v => v ^ 2).sum / l.length)
  else rmsRange f 0 S

/-- The beamformer signal of one direction, `Y_smp @ np.diag(repeat_per_order(w_n)) @ F_nm` (`plot.py` 491, 496). -/
noncomputable def beamSignal (N : ℕ) (w : List ℝ) (F : Fin ((N + 1) ^ 2) → ℕ → ℝ) (azi zen : ℝ) (t : ℕ) : ℝ :=
  ∑ q, shVec N azi zen q * repVec N (fun n => w.getD n 0) q * F q t

/-- The argument `clim` of `sh_rms_map` (`plot.py` 448): left out, a list or a tuple. -/
inductive Clim
  | default
  | list (lo hi : Option ℝ)
  | tuple (lo hi : Option ℝ)

/-- What `sh_rms_map` leaves behind (`plot.py` 509-512): drawn directions and values, colour limits, the default list of the function, the caller's list. -/
structure RmsMap where
  points : List (ℝ × ℝ)
  values : List ℝ
  vmin : Option ℝ
  vmax : Option ℝ
  defaultClim : Option ℝ × Option ℝ
  callerClim : Option (Option ℝ × Option ℝ)

/-- `plot.py` 476-480: the drawn directions, those of the design and both poles three times. -/
noncomputable def rmsPoints (design : List (ℝ × ℝ)) : List (ℝ × ℝ) := design ++ [(π, 0), (0, 0), (-π, 0), (π, π), (0, π), (-π, π)]

/-- `plot.py` 509-510: the first entry after the assignment. -/
noncomputable def climLow (todb : Bool) : Option ℝ → Option ℝ
  | some v => some v
  | none => if todb then none else some 0

/-- `plot.py` 509-512: colour limits, the default list and the caller's list afterwards.  `def0` is the default list as left by earlier calls.  A tuple whose
first entry is `None` cannot be assigned to (`TypeError`). -/
noncomputable def colorLimits (def0 : Option ℝ × Option ℝ) (todb : Bool) :
    Clim → Py ((Option ℝ × Option ℝ) × (Option ℝ × Option ℝ) × Option (Option ℝ × Option ℝ))
  | .default => .ok ((climLow todb def0.1, def0.2), (climLow todb def0.1, def0.2), none)
  | .list lo hi => .ok ((climLow todb lo, hi), def0, some (climLow todb lo, hi))
  | .tuple (some lo) hi => .ok ((some lo, hi), def0, none)
  | .tuple none _ => .error .typeError

/-- `plot.py` 482-512 with the order `N` of line 473. -/
noncomputable def shRmsMapOrder {K : ℕ} (N : ℕ) (def0 : Option ℝ × Option ℝ) (design : List (ℝ × ℝ)) (F : Fin K → ℕ → ℝ) (S : ℕ) (todb : Bool)
    (w : Option (List ℝ)) (clim : Clim) : Py RmsMap :=
  if hK : K = (N + 1) ^ 2 then
    let w := w.getD (hypercardioidWeights N)
    if w.length = N + 1 then
      let pts := rmsPoints design
      let v := pts.map fun p => rmsValue (beamSignal N w (fun q t => F (Fin.cast hK.symm q) t) p.1 p.2) S
      let v := if todb then v.map fun x => db x else v
      (colorLimits def0 todb clim).map fun c =>
        { points := pts, values := v, vmin := c.1.1, vmax := c.1.2, defaultClim := c.2.1, callerClim := c.2.2 }
    else .error .valueError
  else .error .valueError

/-- `plot.py` 447-536 `sh_rms_map` for real harmonics, on the directions of the plotting design.  `def0` is the default list `clim` as left by earlier calls.
Simplifications: there is at least one channel and one sample; a direction without any sound, drawn at `-inf` dB, has the value of `Real.logb` at zero. -/
noncomputable def shRmsMap {K : ℕ} (def0 : Option ℝ × Option ℝ) (design : List (ℝ × ℝ)) (F : Fin K → ℕ → ℝ) (S : ℕ) (todb : Bool) (w : Option (List ℝ))
    (clim : Clim) : Py RmsMap := shRmsMapOrder (shOrder K).toNat def0 design F S todb w clim

/-! ### `spherical_function_map` and `doa` -/

/-- `plot.py` 551: azimuths above π are moved down by a full turn. -/
noncomputable def mapAzimuth (azi : ℝ) : ℝ := if azi > π then azi - 2 * π else azi

/-- `plot.py` 539-590 `spherical_function_map`: the drawn points `(azi, zen, value)` and the caller's azimuth array (a float array) afterwards: `asarray_1d` (549)
does not copy, so line 550 writes into it. -/
noncomputable def sphericalFunctionMap (f azi zen : List ℝ) (todb : Bool) : List (ℝ × ℝ × ℝ) × List ℝ :=
  let a := azi.map mapAzimuth
  let f := if todb then f.map fun x => db x else f
  (a.zip (zen.zip f), a)

/-- `plot.py` 1036: `azi % -np.pi` for azimuths above π. -/
noncomputable def doaAzimuth (azi : ℝ) : ℝ := if azi > π then pyMod azi (-π) else azi

/-- One point of `doa`: azimuth, zenith, size and colour value (`plot.py` 1049-1057). -/
structure DoaPoint where
  azi : ℝ
  zen : ℝ
  size : ℝ
  color : ℝ

/-- `plot.py` 1038-1043: the sizes; the largest pressure is `m`. -/
noncomputable def doaSizes (p : Option (List ℝ)) (n : ℕ) (size : ℝ) : Py (List ℝ) :=
  match p with
  | none => .ok ((List.replicate n (1 : ℝ)).map (· * size))
  | some [] => .error .valueError
  | some (x :: xs) => .ok ((x :: xs).map fun v => max (v / xs.foldl max x) 10e-15 * size)

/-- `plot.py` 1049-1057: the colour values, time in ms if a sampling rate is given. -/
noncomputable def doaColors (c : Option (List ℝ)) (fs : Option ℝ) (n : ℕ) : List ℝ :=
  match c, fs with
  | none, some fs => (List.range n).map fun k : ℕ => k * ((n / fs) / n) * 1000
  | none, none => List.replicate n 1
  | some c, _ => c

/-- `plot.py` 1009-1095 `doa`: the points in drawing order and the caller's azimuth array afterwards (line 1036 writes into it).  Arrays of other length than
`azi` are rejected by `ax.scatter` (`ValueError`).  Simplifications: the largest pressure is not zero, a single size or a colour specification, which
`ax.scatter` would spread over all points, is not considered, transparency is left out. -/
noncomputable def doa (azi zen : List ℝ) (p : Option (List ℝ)) (size : ℝ) (c : Option (List ℝ)) (fs : Option ℝ) : Py (List DoaPoint × List ℝ) :=
  let a := azi.map doaAzimuth
  (doaSizes p azi.length size).bind fun s =>
    let col := doaColors c fs azi.length
    if zen.length = azi.length ∧ s.length = azi.length ∧ col.length = azi.length then
      .ok (((List.range azi.length).map fun i => { azi := a.getD i 0, zen := zen.getD i 0, size := s.getD i 0, color := col.getD i 0 : DoaPoint }).reverse, a)
    else .error .valueError

/-! ### `hrirs_ild_itd` -/

/-- `np.fmod` (`plot.py` 1133): the remainder has the sign of the dividend. -/
noncomputable def npFmod (x y : ℝ) : ℝ := x - y * (pyInt (x / y) : ℤ)

/-- `plot.py` 1133. -/
noncomputable def hrirAzimuth (azi : ℝ) : ℝ := npFmod (azi + π) (2 * π) - π

/-- Largest magnitude (`plot.py` 1143, 1152): `max` of an empty array is a `ValueError`. -/
noncomputable def maxAbs : List ℝ → Py ℝ
  | [] => .error .valueError
  | x :: xs => .ok ((xs.map fun v => |v|).foldl max |x|)

/-- One of the two maps of `hrirs_ild_itd` (`plot.py` 1142-1157): points with values, lower and upper colour limit. -/
structure SignedMap where
  points : List (ℝ × ℝ × ℝ)
  vmin : ℝ
  vmax : ℝ

/-- One of the two maps of `hrirs_ild_itd` (`plot.py` 1142-1148, 1151-1157). -/
noncomputable def signedMap (azi zen v : List ℝ) (lim : Option ℝ) : Py SignedMap :=
  (match lim with
    | some l => (.ok l : Py ℝ)
    | none => maxAbs v).map fun l => { points := (azi.map hrirAzimuth).zip (zen.zip v), vmin := -l, vmax := l }

/-- `plot.py` 1098-1183 `hrirs_ild_itd`, from the results `ilds` (dB) and `itds` (s) of `process.ilds_from_hrirs` and `process.itds_from_hrirs` (1130-1131,
`Model/Interaural.lean`).  Simplification: finite level differences. -/
noncomputable def hrirsIldItd (azi zen ilds itds : List ℝ) (pclims : Option ℝ × Option ℝ) : Py (SignedMap × SignedMap) :=
  (signedMap azi zen ilds pclims.1).bind fun m1 => (signedMap azi zen (itds.map (1000 * ·)) pclims.2).map fun m2 => (m1, m2)

end Verif.Plot
