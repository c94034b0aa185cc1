import Verif.Model.SphCore

/-!
Model of `/repo/spaudiopy/grids.py`: analytic grids (309-413) and the loaders of tabulated designs (61-306).
-/

namespace Verif.Grids
open Real

/-- `np.linspace(0, stop, num, endpoint=False)` (used in `grids.py` 339, 340, 385, 411). -/
noncomputable def linspaceOpen (stop : ℝ) (num : ℕ) : List ℝ := (List.range num).map fun (k : ℕ) => (k : ℝ) * (stop / num)

/-- `np.tile(l, k)` of a one-dimensional array (used in `grids.py` 348, 388). -/
def npTile (l : List ℝ) (k : ℕ) : List ℝ := (List.replicate k l).flatten

/-- `np.repeat(l, k)` of a one-dimensional array (used in `grids.py` 349, 350, 389, 390). -/
def npRepeat (l : List ℝ) (k : ℕ) : List ℝ := l.flatMap (List.replicate k)

/-- `grids.py` 340-341: the zenith angles of `equal_angle` (`zen += d_zen/2`). -/
noncomputable def equalAngleZen (n : ℕ) : List ℝ :=
  (linspaceOpen π (2 * n + 2)).map (· + π / ((2 * n + 2 : ℕ) : ℝ) / 2)

/-- `grids.py` 343-346: one polar weight of `equal_angle`; `p = np.arange(1, 2*n+2, 2)`. -/
noncomputable def equalAngleWeight (n : ℕ) (theta : ℝ) : ℝ :=
  2 * π / (n + 1) * sin theta * ((List.range (n + 1)).map fun (r : ℕ) => sin ((2 * r + 1) * theta) / (2 * r + 1)).sum

/-- `grids.py` 309-352 `equal_angle`. -/
noncomputable def equalAngle (n : ℕ) : List ℝ × List ℝ × List ℝ :=
  let azi := linspaceOpen (2 * π) (2 * n + 2)
  let zen := equalAngleZen n
  let weights := zen.map (equalAngleWeight n)
  (npTile azi (2 * n + 2), npRepeat zen (2 * n + 2), (npRepeat weights (2 * n + 2)).map (· / ((n : ℝ) + 1)))

/-- `grids.py` 355-392 `gauss`; `leggauss m` is the external `np.polynomial.legendre.leggauss` (nodes and weights). -/
noncomputable def gauss (leggauss : ℕ → List ℝ × List ℝ) (n : ℕ) : List ℝ × List ℝ × List ℝ :=
  let azi := linspaceOpen (2 * π) (2 * n + 2)
  let x := (leggauss (n + 1)).1
  let weights := (leggauss (n + 1)).2
  let zen := x.map arccos
  (npTile azi (n + 1), npRepeat zen (2 * n + 2), (npRepeat weights (2 * n + 2)).map (· * (π / ((n : ℝ) + 1))))

/-- `grids.py` 395-413 `equal_polar_angle`. -/
noncomputable def equalPolarAngle (n : ℕ) : List ℝ × List ℝ :=
  let num_mic := 2 * n + 1
  (linspaceOpen (2 * π) num_mic, List.replicate num_mic (1 / (num_mic : ℝ) * 1))

/-- A loader that retries with the next degree on `KeyError`: `grids.py` 142-156 (`load_n_design`, bounds 1..124),
188-206 (`load_lebedev`, 3..131), 288-306 (`load_maxDet`, 1..200). `mat` is the content of the data file, the result carries the
list of degrees for which the "not defined, trying" warning was issued. Simplification: the slicing of the loaded array and the
warning about negative weights are part of `mat`. -/
def loadNext {α : Type _} (lo hi : ℤ) (mat : ℤ → Option α) (degree : ℤ) : Py (α × List ℤ) :=
  if degree > hi then .error .valueError
  else if degree < lo then .error .valueError
  else match mat degree with
    | some d => .ok (d, [])
    | none => do
      let r ← loadNext lo hi mat (degree + 1)
      return (r.1, degree :: r.2)
termination_by (hi + 1 - degree).toNat
decreasing_by omega

/-- `grids.py` 113-156 `load_n_design`. -/
def loadNDesign {α : Type _} (mat : ℤ → Option α) (degree : ℤ) : Py (α × List ℤ) := loadNext 1 124 mat degree
/-- `grids.py` 159-206 `load_lebedev`. -/
def loadLebedev {α : Type _} (mat : ℤ → Option α) (degree : ℤ) : Py (α × List ℤ) := loadNext 3 131 mat degree
/-- `grids.py` 259-306 `load_maxDet`. -/
def loadMaxDet {α : Type _} (mat : ℤ → Option α) (degree : ℤ) : Py (α × List ℤ) := loadNext 1 200 mat degree

/-- `grids.py` 97-110 `load_t_design`; `t_designs` is the list stored in the data file. -/
def loadTDesign {α : Type _} (t_designs : List α) (degree : ℤ) : Py α :=
  if degree > 21 then .error .valueError
  else if degree < 1 then .error .valueError
  else pyGet t_designs (degree - 1)

/-- `grids.py` 243-256 `load_Fliege_Maier_nodes`. -/
def loadFliegeMaier {α : Type _} (nodes : List α) (order : ℤ) : Py α :=
  if order > 30 then .error .valueError
  else if order < 2 then .error .valueError
  else pyGet nodes (order - 1)

/-- `grids.py` 46-51: the search for the supported order in `calculate_grid_weights`; `cond k` is the value of
`check_cond_sht(k, ...)`. `none` when the loop ends without `break`. -/
noncomputable def searchOrder (cond : ℕ → ℝ) : List ℕ → Option ℕ
  | [] => none
  | k :: ks => if cond k > 2 * ((k : ℝ) + 1) then some (k - 1) else searchOrder cond ks

/-- `grids.py` 55-57: the weights for a given order and whether `warn('Could not calculate weights')` is issued. -/
noncomputable def gridWeights {Q : ℕ} (pinv : (K : ℕ) → Matrix (Fin Q) (Fin K) ℝ → Matrix (Fin K) (Fin Q) ℝ) (azi zen : Fin Q → ℝ)
    (N : ℕ) : (Fin Q → ℝ) × Bool :=
  let weights := fun q => √(4 * π) * pinv _ (Sph.shMat N azi zen) ⟨0, Sph.sq_pos' _⟩ q
  open Classical in (weights, decide (|∑ q, weights q - 4 * π| > 0.01 ∨ ∃ q, weights q < 0))

/-- `grids.py` 22-58 `calculate_grid_weights`, the external `np.linalg.pinv` as a parameter. `None > 0` raises `TypeError`,
order 0 fails the assertion. -/
noncomputable def calculateGridWeights {Q : ℕ} (cond : ℕ → ℝ)
    (pinv : (K : ℕ) → Matrix (Fin Q) (Fin K) ℝ → Matrix (Fin K) (Fin Q) ℝ) (azi zen : Fin Q → ℝ) (order : Option ℤ) :
    Py ((Fin Q → ℝ) × Bool) :=
  match order.orElse (fun _ => (searchOrder cond ((List.range 99).map (· + 1))).map (fun (k : ℕ) => (k : ℤ))) with
  | none => .error .typeError
  | some order => if 0 < order then .ok (gridWeights pinv azi zen order.toNat) else .error .assertionError

end Verif.Grids
