import Verif.Model.SphHarm

/-!
Model of `/repo/spaudiopy/sph.py` 222-426: SH rotation matrices.
-/

namespace Verif

/-- Index into a sequence with Python rules: negative indices count from the end, `IndexError` outside
(used e.g. in `/repo/spaudiopy/sph.py` 281-293). -/
def pyGet {α : Type _} (l : List α) (i : ℤ) : Py α :=
  let j := if i < 0 then i + l.length else i
  if j < 0 then .error .indexError
  else match l[j.toNat]? with
    | some x => .ok x
    | none => .error .indexError

/-- Element access `M[i, j]` of a two-dimensional array (used e.g. in `/repo/spaudiopy/sph.py` 281-293). -/
def npGet2 {α : Type _} (M : List (List α)) (i j : ℤ) : Py α := do
  let row ← pyGet M i
  pyGet row j

/-- A two-dimensional numpy array with its shape (used for arrays whose shape depends on the data, e.g.
`/repo/spaudiopy/sph.py` 363-373, 424-426). -/
structure NpMat where
  rows : ℕ
  cols : ℕ
  val : Matrix (Fin rows) (Fin cols) ℝ

/-- `A @ B`: `ValueError` unless the inner dimensions agree (used e.g. in `/repo/spaudiopy/sph.py` 426). -/
noncomputable def NpMat.matmul (A B : NpMat) : Py NpMat :=
  if h : A.cols = B.rows then
    .ok ⟨A.rows, B.cols, fun i j => ∑ k : Fin A.cols, A.val i k * B.val (Fin.cast h k) j⟩
  else .error .valueError

/-- `A.T` (used e.g. in `/repo/spaudiopy/sph.py` 426). -/
def NpMat.transpose (A : NpMat) : NpMat := ⟨A.cols, A.rows, A.val.transpose⟩

end Verif

namespace Verif.Sph
open Real

/-- `sph.py` 274-276: rows and columns of the Cartesian rotation matrix in the order y, z, x. -/
def rotR1 (r : Matrix (Fin 3) (Fin 3) ℝ) : List (List ℝ) :=
  [1, 2, 0].map fun i => [1, 2, 0].map fun j => r i j

/-- `sph.py` 280-292 `_rot_p_func`. -/
noncomputable def rotP (i l a b : ℤ) (r1 rlm1 : List (List ℝ)) : Py ℝ := do
  let ri1 ← npGet2 r1 (i + 1) 2
  let rim1 ← npGet2 r1 (i + 1) 0
  let ri0 ← npGet2 r1 (i + 1) 1
  if b = -l then
    let p ← npGet2 rlm1 (a + l - 1) 0
    let q ← npGet2 rlm1 (a + l - 1) (2 * l - 2)
    return ri1 * p + rim1 * q
  else if b = l then
    let p ← npGet2 rlm1 (a + l - 1) (2 * l - 2)
    let q ← npGet2 rlm1 (a + l - 1) 0
    return ri1 * p - rim1 * q
  else
    let p ← npGet2 rlm1 (a + l - 1) (b + l - 1)
    return ri0 * p

/-- `sph.py` 294-295 `_rot_u_func`. -/
noncomputable def rotU (l m n : ℤ) (r1 rlm1 : List (List ℝ)) : Py ℝ := rotP 0 l m n r1 rlm1

/-- `sph.py` 297-314 `_rot_v_func`. -/
noncomputable def rotV (l m n : ℤ) (r1 rlm1 : List (List ℝ)) : Py ℝ :=
  if m = 0 then do
    let p0 ← rotP 1 l 1 n r1 rlm1
    let p1 ← rotP (-1) l (-1) n r1 rlm1
    return p0 + p1
  else if m > 0 then do
    let p0 ← rotP 1 l (m - 1) n r1 rlm1
    if m = 1 then return p0 * √2
    else
      let p1 ← rotP (-1) l (1 - m) n r1 rlm1
      return p0 - p1
  else do
    let p1 ← rotP (-1) l (-m - 1) n r1 rlm1
    if m = -1 then return p1 * √2
    else
      let p0 ← rotP 1 l (m + 1) n r1 rlm1
      return p1 + p0

/-- `sph.py` 316-325 `_rot_w_func`. -/
noncomputable def rotW (l m n : ℤ) (r1 rlm1 : List (List ℝ)) : Py ℝ :=
  if m > 0 then do
    let p0 ← rotP 1 l (m + 1) n r1 rlm1
    let p1 ← rotP (-1) l (-m - 1) n r1 rlm1
    return p0 + p1
  else if m < 0 then do
    let p0 ← rotP 1 l (m - 1) n r1 rlm1
    let p1 ← rotP (-1) l (1 - m) n r1 rlm1
    return p0 - p1
  else return 0

/-- `sph.py` 351-356: `if u != 0: u *= f(...)`; the function is only evaluated for a non-zero coefficient. -/
noncomputable def mulGuarded (u : ℝ) (f : Py ℝ) : Py ℝ := if u ≠ 0 then f.map (u * ·) else pure u

/-- `sph.py` 332-358: one entry of the block of order `l`. -/
noncomputable def rotEntry (l m n : ℤ) (r1 rlm1 : List (List ℝ)) : Py ℝ := do
  let d : ℝ := if m = 0 then 1 else 0
  let denom : ℝ := if |n| = l then (2 * l) * (2 * l - 1) else l * l - n * n
  let u := √((l * l - m * m) / denom)
  let v := √((1 + d) * (l + |(m : ℝ)| - 1) * (l + |(m : ℝ)|) / denom) * (1 - 2 * d) * (1 / 2)
  let w := √((l - |(m : ℝ)| - 1) * (l - |(m : ℝ)|) / denom) * (1 - d) * (-(1 / 2))
  let u ← mulGuarded u (rotU l m n r1 rlm1)
  let v ← mulGuarded v (rotV l m n r1 rlm1)
  let w ← mulGuarded w (rotW l m n r1 rlm1)
  return u + v + w

/-- `sph.py` 329-358: the block of order `l` from the block of order `l - 1`
(rows `m = -l .. l`, columns `n = -l .. l`). -/
noncomputable def rotBlock (l : ℕ) (r1 rlm1 : List (List ℝ)) : Py (List (List ℝ)) :=
  (List.range (2 * l + 1)).mapM fun (i : ℕ) => (List.range (2 * l + 1)).mapM fun (j : ℕ) =>
    rotEntry l ((i : ℤ) - l) ((j : ℤ) - l) r1 rlm1

/-- `sph.py` 328-361: the loop over orders, `k` further blocks beginning with order `l`. -/
noncomputable def rotLoop (r1 : List (List ℝ)) : (k l : ℕ) → (rlm1 : List (List ℝ)) → Py (List (List (List ℝ)))
  | 0, _, _ => return []
  | k + 1, l, rlm1 => do
    let rl ← rotBlock l r1 rlm1
    let rest ← rotLoop r1 k (l + 1) rl
    return rl :: rest

/-- `sph.py` 222-364 `sh_rotation_matrix(..., return_as_blocks=True)`. Simplification: scalar angles. -/
noncomputable def shRotationBlocks (N : ℤ) (yaw pitch roll : ℝ) (ty : ShType) : Py (List (List (List ℝ))) :=
  match ty with
  | .complex => .error .notImplementedError
  | .other => .error .valueError
  | .real => do
    let r1 := rotR1 (Utils.rotationEuler yaw pitch roll)
    let rest ← rotLoop r1 (N - 1).toNat 2 r1
    return [[1]] :: r1 :: rest

/-- `sph.py` 370-371: assign one square block into the `S × S` array at `index`. The slices are clamped to the array; numpy
raises `ValueError` unless the clamped slice has the shape of the block (a 1 × 1 block broadcasts). -/
noncomputable def placeBlock {S : ℕ} (R : Matrix (Fin S) (Fin S) ℝ) (index : ℕ) (b : List (List ℝ)) :
    Py (Matrix (Fin S) (Fin S) ℝ) :=
  let s := b.length
  let c := min S (index + s) - min S index
  if c = s ∨ s = 1 then
    .ok fun i j =>
      if index ≤ i.val ∧ i.val < index + s ∧ index ≤ j.val ∧ j.val < index + s then
        (b.getD (i.val - index) []).getD (j.val - index) 0
      else R i j
  else .error .valueError

/-- `sph.py` 367-373: the loop assembling the block diagonal matrix. -/
noncomputable def placeBlocks {S : ℕ} : Matrix (Fin S) (Fin S) ℝ → ℕ → List (List (List ℝ)) →
    Py (Matrix (Fin S) (Fin S) ℝ)
  | R, _, [] => return R
  | R, index, b :: bs => do
    let R ← placeBlock R index b
    placeBlocks R (index + b.length) bs

/-- `sph.py` 222-373 `sh_rotation_matrix`. Simplification: scalar angles. -/
noncomputable def shRotationMatrix (N : ℤ) (yaw pitch roll : ℝ) (ty : ShType) : Py NpMat := do
  let blocks ← shRotationBlocks N yaw pitch roll ty
  let R ← placeBlocks (S := ((N + 1) ^ 2).toNat) 0 0 blocks
  return ⟨_, _, R⟩

/-- `sph.py` 376-426 `rotate_sh`. Simplification: `F_nm` has two dimensions (after `atleast_2d`). -/
noncomputable def rotateSh (F : NpMat) (yaw pitch roll : ℝ) (ty : ShType) : Py NpMat :=
  match ty with
  | .complex => .error .notImplementedError
  | .other => .error .valueError
  | .real =>
    let N : ℝ := √(F.cols : ℝ) - 1
    if N = (⌊N⌋ : ℤ) then do
      let R ← shRotationMatrix (pyInt N) yaw pitch roll ty
      F.matmul R.transpose
    else .error .assertionError

end Verif.Sph
