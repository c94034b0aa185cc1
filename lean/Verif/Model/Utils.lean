import Verif.Model.Base
import Mathlib.Analysis.SpecialFunctions.Trigonometric.Inverse
import Mathlib.Analysis.SpecialFunctions.Complex.Arg
import Mathlib.Analysis.SpecialFunctions.Log.Base
import Mathlib.LinearAlgebra.CrossProduct
import Mathlib.LinearAlgebra.Matrix.Notation

/-!
Model of `/repo/spaudiopy/utils.py`. Floats are reals; vectorised functions are modelled on one element.
-/

namespace Verif.Utils
open Real Matrix

/-- `utils.py` 17-30 `asarray_1d`: squeeze, upgrade scalars, reject rank above one. -/
def asarray1d {α : Type _} (a : NDArray α) : Py (NDArray α) :=
  let result := a.squeeze
  if result.shape.length = 0 then .ok { shape := [1], data := result.data }
  else if result.shape.length > 1 then .error .valueError
  else .ok result

/-- `utils.py` 33-35 `deg2rad`. -/
noncomputable def deg2rad (deg : ℝ) : ℝ := pyMod deg 360 / 180 * π

/-- `utils.py` 38-40 `rad2deg`. -/
noncomputable def rad2deg (rad : ℝ) : ℝ := pyMod (rad / π * 180) 360

/-- `np.arctan2(y, x)` (used in `utils.py` 49, 79): the argument of `x + iy`, in `(-π, π]`.
Simplification: signed zeros are not distinguished. -/
noncomputable def arctan2 (y x : ℝ) : ℝ := Complex.arg ⟨x, y⟩

/-- `utils.py` 43-54 `cart2sph`, returning `(azi, zen, r)`.
Simplification: at the origin numpy yields `nan` for `z/r`, the model `arccos 0`; theorems exclude the origin. -/
noncomputable def cart2sph (x y z : ℝ) (positiveAzi steadyZen : Bool) : ℝ × ℝ × ℝ :=
  let r := √(x ^ 2 + y ^ 2 + z ^ 2)
  let azi := arctan2 y x
  let azi := if positiveAzi then pyMod azi (2 * π) else azi
  let zen := if !steadyZen then arccos (z / r) else arccos (z / max r 10e-15)
  (azi, zen, r)

/-- `utils.py` 57-65 `sph2cart`. -/
noncomputable def sph2cart (azi zen : ℝ) (r : ℝ := 1) : ℝ × ℝ × ℝ :=
  (r * cos azi * sin zen, r * sin azi * sin zen, r * cos zen)

/-- `utils.py` 68-74 `matlab_sph2cart` (elevation instead of zenith). -/
noncomputable def matlabSph2cart (az elev : ℝ) (r : ℝ := 1) : ℝ × ℝ × ℝ :=
  let z := r * sin elev
  let rcoselev := r * cos elev
  (rcoselev * cos az, rcoselev * sin az, z)

/-- `utils.py` 77-80 `cart2dir`. Same remark on the origin as `cart2sph`. -/
noncomputable def cart2dir (x y z : ℝ) : ℝ × ℝ :=
  (arctan2 y x, arccos (z / √(x ^ 2 + y ^ 2 + z ^ 2)))

/-- `utils.py` 83-85 `dir2cart`. -/
noncomputable def dir2cart (azi zen : ℝ) : ℝ × ℝ × ℝ :=
  (cos azi * sin zen, sin azi * sin zen, cos zen)

/-- `utils.py` 88-91 `vec2dir` on one vector. -/
noncomputable def vec2dir (v : Fin 3 → ℝ) : ℝ × ℝ := cart2dir (v 0) (v 1) (v 2)

/-- `np.linalg.norm` of a 3-vector (used in `utils.py` 102-103, 126, 138-141, 191). -/
noncomputable def norm3 (v : Fin 3 → ℝ) : ℝ := √(v ⬝ᵥ v)

/-- `np.clip(a, -1, 1)` (`utils.py` 104). -/
noncomputable def clip1 (a : ℝ) : ℝ := min (max a (-1)) 1

/-- `utils.py` 94-104 `angle_between` for one vector `v2`; `vi` is the optional initial point. -/
noncomputable def angleBetween (v1 v2 : Fin 3 → ℝ) (vi : Option (Fin 3 → ℝ) := none) : ℝ :=
  let v1' := match vi with | some w => v1 - w | none => v1
  let v2' := match vi with | some w => v2 - w | none => v2
  arccos (clip1 (v1' ⬝ᵥ v2' / (norm3 v1' * norm3 v2')))

/-- `utils.py` 111-112 `Rx`. -/
noncomputable def rotX (roll : ℝ) : Matrix (Fin 3) (Fin 3) ℝ :=
  !![1, 0, 0; 0, cos roll, sin roll; 0, -sin roll, cos roll]

/-- `utils.py` 113-114 `Ry`. -/
noncomputable def rotY (pitch : ℝ) : Matrix (Fin 3) (Fin 3) ℝ :=
  !![cos pitch, 0, -sin pitch; 0, 1, 0; sin pitch, 0, cos pitch]

/-- `utils.py` 115-116 `Rz`. -/
noncomputable def rotZ (yaw : ℝ) : Matrix (Fin 3) (Fin 3) ℝ :=
  !![cos yaw, sin yaw, 0; -sin yaw, cos yaw, 0; 0, 0, 1]

/-- `utils.py` 107-117 `rotation_euler`. -/
noncomputable def rotationEuler (yaw pitch roll : ℝ) : Matrix (Fin 3) (Fin 3) ℝ :=
  rotZ yaw * rotY pitch * rotX roll

/-- `utils.py` 127: the cross product matrix `K` of the normalised axis. -/
def crossMat (k : Fin 3 → ℝ) : Matrix (Fin 3) (Fin 3) ℝ :=
  !![0, -k 2, k 1; k 2, 0, -k 0; -k 1, k 0, 0]

/-- `utils.py` 120-131 `rotation_rodrigues`. Simplification: a zero axis (numpy: `nan`) is division by zero. -/
noncomputable def rotationRodrigues (k : List ℝ) (theta : ℝ) : Py (Matrix (Fin 3) (Fin 3) ℝ) :=
  match k with
  | [a, b, c] =>
    if theta > 10e-10 then
      let k : Fin 3 → ℝ := (norm3 ![a, b, c])⁻¹ • ![a, b, c]
      let K := crossMat k
      .ok (1 + sin theta • K + (1 - cos theta) • (K * K))
    else .ok 1
  | _ => .error .assertionError

/-- `utils.py` 134-144 `rotation_vecvec`. -/
noncomputable def rotationVecvec (f t : List ℝ) : Py (Matrix (Fin 3) (Fin 3) ℝ) :=
  match f, t with
  | [f0, f1, f2], [t0, t1, t2] =>
    let f : Fin 3 → ℝ := (norm3 ![f0, f1, f2])⁻¹ • ![f0, f1, f2]
    let t : Fin 3 → ℝ := (norm3 ![t0, t1, t2])⁻¹ • ![t0, t1, t2]
    let k := f ⨯₃ t
    if norm3 k < 10e-15 then .error .valueError
    else rotationRodrigues [k 0, k 1, k 2] (arccos (f ⬝ᵥ t))
  | _, _ => .error .assertionError

/-- `utils.py` 147-186 `haversine`. -/
noncomputable def haversine (azi1 zen1 azi2 zen2 : ℝ) (r : ℝ := 1) : ℝ :=
  let lat1 := π / 2 - zen1
  let lat2 := π / 2 - zen2
  let dlon := azi2 - azi1
  let dlat := lat2 - lat1
  let hA := sin (dlat / 2) ^ 2
  let hB := sin (dlon / 2) ^ 2
  let hAlpha := hA + cos lat1 * cos lat2 * hB
  2 * r * arcsin (√hAlpha)

/-- `utils.py` 189-191 `area_triangle`. -/
noncomputable def areaTriangle (p1 p2 p3 : Fin 3 → ℝ) : ℝ :=
  0.5 * norm3 ((p2 - p1) ⨯₃ (p3 - p1))

/-- `utils.py` 194-206 `db`. Simplification: `log10(0) = -inf` is not modelled; theorems exclude `x = 0`. -/
noncomputable def db (x : ℝ) (power : Bool := false) : ℝ :=
  (if power then 10 else 20) * logb 10 |x|

/-- `utils.py` 209-219 `from_db`. -/
noncomputable def fromDb (d : ℝ) (power : Bool := false) : ℝ :=
  (10 : ℝ) ^ (d / (if power then 10 else 20))

/-- `utils.py` 222-232 `rms` of a real vector (mean over the given axis). -/
noncomputable def rms (x : List ℝ) : ℝ := √((x.map fun v => v * v).sum / x.length)

/-- A two-dimensional numpy array given by its rows; `cols` is the second shape entry
(used by `utils.py` 267-284). -/
structure Arr2 (α : Type _) where
  cols : ℕ
  rows : List (List α)

/-- Every row has `cols` entries (always true of a numpy array). -/
def Arr2.WF {α : Type _} (a : Arr2 α) : Prop := ∀ r ∈ a.rows, r.length = a.cols

/-- `.shape` of a 2-D array. -/
def Arr2.shape {α : Type _} (a : Arr2 α) : ℕ × ℕ := (a.rows.length, a.cols)

/-- `np.repeat(a, 2, axis=0)` (`utils.py` 281). -/
def repeatRows {β : Type _} (l : List β) : List β := l.flatMap fun r => [r, r]

/-- `out[1::2, :] = right` (`utils.py` 282): row `2i+1` becomes `right[i]`. -/
def setOddRows {β : Type _} (out right : List β) : List β :=
  out.mapIdx fun i r => if i % 2 = 1 then (right[i / 2]?).getD r else r

/-- `utils.py` 267-284 `interleave_channels` on 2-D arrays; `ssr` stands for `style == 'SSR'`. -/
def interleaveChannels {α : Type _} (left right : Arr2 α) (ssr : Bool := false) : Py (Arr2 α) :=
  if ¬ left.shape = right.shape then .error .valueError
  else if ssr = true ∧ ¬ left.shape.1 = 360 then .error .valueError
  else .ok { cols := left.cols, rows := setOddRows (repeatRows left.rows) right.rows }

/-- `np.vstack` of two 2-D arrays with equal column count (`utils.py` 242). -/
def vstack {α : Type _} (a b : Arr2 α) : Arr2 α := { cols := a.cols, rows := a.rows ++ b.rows }

/-- `np.hstack` of two 2-D arrays with equal row count (`utils.py` 244). -/
def hstack {α : Type _} (a b : Arr2 α) : Arr2 α :=
  { cols := a.cols + b.cols, rows := List.zipWith (· ++ ·) a.rows b.rows }

/-- `utils.py` 235-247 `stack` on 2-D input. `np.vstack` needs equal columns and `np.hstack` equal rows, else numpy
raises `ValueError`. Simplification: the final `np.squeeze` is not applied; the stacked array is at least 2 x 2 unless an input is empty, so only
empty results lose an axis by it. -/
def stack {α : Type _} (v1 v2 : Arr2 α) : Py (Arr2 α) :=
  let M1 := v1.shape.1; let N1 := v1.shape.2
  let M2 := v2.shape.1; let N2 := v2.shape.2
  if M1 = M2 ∧ (M1 < N1 ∨ M2 < N2) then
    if N1 = N2 then .ok (vstack v1 v2) else .error .valueError
  else if N1 = N2 ∧ (N1 < M1 ∨ N2 < M2) then
    if M1 = M2 then .ok (hstack v1 v2) else .error .valueError
  else .error .valueError

/-- Broadcasting of two raveled arrays (`utils.py` 256): equal sizes, or one of them of size one. -/
def broadcast1d (a b : List ℝ) : Py (List (ℝ × ℝ)) :=
  if a.length = b.length then .ok (a.zip b)
  else
    match a, b with
    | [x], b => .ok (b.map fun y => (x, y))
    | a, [y] => .ok (a.map fun x => (x, y))
    | _, _ => .error .valueError

/-- `utils.py` 250-264 `test_diff` with `axis=None`, on the raveled arrays; what is printed is `Printed` of the result (260-263). -/
def testDiff (v1 v2 : List ℝ) : Py ℝ :=
  (broadcast1d v1 v2).map fun ps => (ps.map fun p => |p.1 - p.2|).sum

/-- `utils.py` 260-263: whether the difference is reported (`true`) or called close enough. -/
noncomputable def testDiffReports (d lim : ℝ) : Bool := decide (lim < d)

end Verif.Utils
