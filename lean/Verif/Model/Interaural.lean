import Verif.Model.Process

/-!
Model of `/repo/spaudiopy/process.py` 197-271: `ilds_from_hrirs`, `itds_from_hrirs`.

The band-pass (`signal.butter` and `signal.sosfiltfilt`) is an external routine: a parameter that maps every row to a row of the same
length, or raises.
-/

namespace Verif.Process

open Real Verif.Sig Verif.Utils

/-- `signal.sosfiltfilt(sos, x, axis=-1)` with the band-pass of `process.py` 217, 259: external, works row by row and keeps the number of
samples.  It raises `ValueError` for too few samples or for cutoff frequencies outside `(0, fs/2)`. -/
structure BandPass where
  run : ℝ → ℝ × ℝ → List ℝ → Py (List ℝ)
  run_length : ∀ fs fc x y, run fs fc x = .ok y → y.length = x.length

/-- A level difference as numpy computes it: a number, `±inf` or `nan` (`process.py` 222-227). -/
inductive Level
  | val (x : ℝ)
  | posInf
  | negInf
  | nan

/-- `utils.db(l / r)` for two root mean squares `l, r ≥ 0` (`process.py` 223-224, `utils.py` 194-206): `x/0` is `inf`, `0/0` is `nan`,
`log10(0)` is `-inf`. -/
noncomputable def levelRatio (l r : ℝ) : Level :=
  if r = 0 then (if l = 0 then .nan else .posInf)
  else if l = 0 then .negInf
  else .val (db (l / r))

/-- One entry of the result of `ilds_from_hrirs` (`process.py` 222-227) from the filtered rows of both ears. -/
noncomputable def ildOf (todb : Bool) (l r : List ℝ) : Level :=
  if todb then levelRatio (rms l) (rms r) else .val (rms l - rms r)

/-- `process.py` 197-228 `ilds_from_hrirs`. -/
noncomputable def ildsFromHrirs (bp : BandPass) (h : HRIRs) (fCut : ℝ × ℝ) (todb : Bool) : Py (List Level) :=
  (h.left.rows.mapM (bp.run h.fs fCut)).bind fun l => (h.right.rows.mapM (bp.run h.fs fCut)).map fun r =>
    List.zipWith (ildOf todb) l r

/-- Sample at an index that may lie outside (zero there). -/
def sampleAt (x : List ℝ) (i : ℤ) : ℝ := if 0 ≤ i then x.getD i.toNat 0 else 0

/-- The cross-correlation `Σ_m a[m+k] v[m]` at lag `k` (`np.correlate`, `process.py` 265). -/
noncomputable def corrAt (a v : List ℝ) (k : ℤ) : ℝ := ∑ m ∈ Finset.range v.length, sampleAt a (m + k) * v.getD m 0

/-- `np.correlate(a, v, mode='same')` of two arrays with the same number `n` of samples (`process.py` 265-266): lags `-(n//2)` up to
`n - 1 - n//2`.  An empty array raises `ValueError`. -/
noncomputable def correlateSame (a v : List ℝ) : Py (List ℝ) :=
  if a = [] ∨ v = [] then .error .valueError
  else .ok ((List.range a.length).map fun i : ℕ => corrAt a v ((i : ℤ) - ((a.length / 2 : ℕ) : ℤ)))

/-- `process.py` 263-271: the interaural time difference of one direction from the filtered, upsampled rows. -/
noncomputable def itdOf (fsRs : ℝ) (l r : List ℝ) : Py ℝ :=
  (correlateSame (l.map (· ^ 2)) (r.map (· ^ 2))).bind fun c =>
    (npArgmax c).map fun i : ℕ => -((i : ℝ) - ((l.length / 2 : ℕ) : ℝ)) / fsRs

/-- `process.py` 231-271 `itds_from_hrirs`: upsampling row by row (one job), filtering, then one time difference per direction.
Simplification: as many rows left as right (the `HRIRs` class checks it), and the rows of the right ear have as many samples as those of the
left ear. -/
noncomputable def itdsFromHrirs (rs : Resampler) (bp : BandPass) (h : HRIRs) (fCut : ℝ × ℝ) (upsample : ℝ) : Py (List ℝ) :=
  let fsRs := upsample * h.fs
  ((h.left.rows.map (rs.run h.fs fsRs)).mapM (bp.run fsRs fCut)).bind fun l =>
    ((h.right.rows.map (rs.run h.fs fsRs)).mapM (bp.run fsRs fCut)).bind fun r =>
      (l.zip r).mapM fun p : List ℝ × List ℝ => itdOf fsRs p.1 p.2

end Verif.Process
