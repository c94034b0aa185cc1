import Verif.Model.Utils
import Mathlib.Algebra.Polynomial.Derivative
import Mathlib.Algebra.Polynomial.Eval.Defs
import Mathlib.Analysis.SpecialFunctions.Trigonometric.Basic
import Mathlib.Data.Nat.Factorial.Basic
import Mathlib.LinearAlgebra.Matrix.ConjTranspose

/-!
Model of the spherical harmonics part of `/repo/spaudiopy/sph.py` (lines 27-439): evaluation, transforms, rotation.
-/

namespace Verif.Sph
open Real Polynomial

/-- `sh_type` argument (`sph.py` 27, 115, 222, ...): `'real'`, `'complex'` or any other string. -/
inductive ShType | real | complex | other
  deriving DecidableEq

/-- Legendre polynomial `P_n` by Bonnet's recurrence: meaning of `scipy.special.eval_legendre`
(used in `sph.py` 690, 728) and ingredient of `scipy.special.sph_harm` (`sph.py` 97, 101, 105, 109). -/
noncomputable def legPoly : ℕ → ℝ[X]
  | 0 => 1
  | 1 => X
  | n + 2 => C (1 / ((n : ℝ) + 2)) * (C (2 * (n : ℝ) + 3) * X * legPoly (n + 1) - C ((n : ℝ) + 1) * legPoly n)

/-- `scipy.special.eval_legendre` (used in `sph.py` 690, 728). -/
noncomputable def evalLegendre (n : ℕ) (x : ℝ) : ℝ := (legPoly n).eval x

/-- Associated Legendre function with Condon-Shortley phase,
`(-1)^m (1-x²)^(m/2) d^m/dx^m P_n`, ingredient of `scipy.special.sph_harm` (`sph.py` 97, 101, 105, 109). -/
noncomputable def assocLegendre (n m : ℕ) (x : ℝ) : ℝ :=
  (-1) ^ m * √(1 - x ^ 2) ^ m * (derivative^[m] (legPoly n)).eval x

/-- `scipy.special.sph_harm(m, n, azi, zen)` for `m ≥ 0` (used in `sph.py` 97-109):
`√((2n+1)/(4π) (n-m)!/(n+m)!) P_n^m(cos zen) e^{i m azi}`. External routine, modelled by its documented formula. -/
noncomputable def sphHarmNonneg (m n : ℕ) (azi zen : ℝ) : ℂ :=
  (√((2 * n + 1) / (4 * π) * ((n - m).factorial / (n + m).factorial)) * assocLegendre n m (cos zen) : ℝ)
    * Complex.exp ((m * azi : ℝ) * Complex.I)

/-- `scipy.special.sph_harm(m, n, azi, zen)` (used in `sph.py` 97-109), negative degrees by
`Y_n^{-m} = (-1)^m conj(Y_n^m)`. -/
noncomputable def sphHarm (m : ℤ) (n : ℕ) (azi zen : ℝ) : ℂ :=
  if 0 ≤ m then sphHarmNonneg m.natAbs n azi zen
  else (-1) ^ m.natAbs * (starRingEnd ℂ) (sphHarmNonneg m.natAbs n azi zen)

/-- `sph.py` 98-109: one entry of the real SH matrix. -/
noncomputable def realSH (n : ℕ) (m : ℤ) (azi zen : ℝ) : ℝ :=
  if m = 0 then (sphHarm 0 n azi zen).re
  else if m < 0 then √2 * (-1) ^ m.natAbs * (sphHarm |m| n azi zen).im
  else √2 * (-1) ^ m.natAbs * (sphHarm |m| n azi zen).re

/-- `sph.py` 93-95, 111: the order in which the double loop visits order `n` and degree `m`; the running column `idx`
is the position in this list. -/
def acnPairs (N : ℕ) : List (ℕ × ℤ) :=
  (List.range (N + 1)).flatMap fun n => (List.range (2 * n + 1)).map fun (k : ℕ) => (n, (k : ℤ) - n)

/-- `sph.py` 93-111, one row of the real SH matrix. -/
noncomputable def shRow (N : ℕ) (azi zen : ℝ) : List ℝ :=
  (acnPairs N).map fun p => realSH p.1 p.2 azi zen

/-- `sph.py` 93-111, one row of the complex SH matrix. -/
noncomputable def shRowC (N : ℕ) (azi zen : ℝ) : List ℂ :=
  (acnPairs N).map fun p => sphHarm p.2 p.1 azi zen

/-- Broadcasting of `zen` against the `Q = len(azi)` rows (`sph.py` 80-91, 97-109): the column assignment needs `zen` of the
same length or of length one, otherwise numpy raises `ValueError`. -/
def pairDirs (azi zen : List ℝ) : Py (List (ℝ × ℝ)) :=
  match zen with
  | [z] => .ok (azi.map fun a => (a, z))
  | _ => if azi.length = zen.length then .ok (azi.zip zen) else .error .valueError

/-- The array returned by `sh_matrix` (`sph.py` 86-89): float64 or complex128 rows. -/
inductive ShArr
  | real (rows : List (List ℝ))
  | complex (rows : List (List ℂ))

/-- `sph.py` 27-112 `sh_matrix` (arrays already one-dimensional, see `asarray1d`). -/
noncomputable def shMatrix (N : ℕ) (azi zen : List ℝ) (ty : ShType) : Py ShArr :=
  match ty with
  | .complex => do
    let dirs ← pairDirs azi zen
    return .complex (dirs.map fun d => shRowC N d.1 d.2)
  | .real => do
    let dirs ← pairDirs azi zen
    return .real (dirs.map fun d => shRow N d.1 d.2)
  | .other => .error .valueError

/-- `sph.py` 773-788 `repeat_per_order`: `np.repeat(c, 2*np.arange(N+1)+1)` on a one-dimensional `c`. -/
def repeatPerOrder {α : Type _} (c : List α) : List α :=
  c.zipIdx.flatMap fun p => List.replicate (2 * p.2 + 1) p.1

/-- The order inferred from `K` channels, `int(sqrt(K) - 1)`: `sph.py` 215, 460, 486, 1288, 1289,
`decoder.py` 965, 1048, 1115, 1169, 1236, `parsa.py` 241, 293, 353. -/
noncomputable def shOrder (K : ℕ) : ℤ := pyInt (√(K : ℝ) - 1)

/-- Order of ACN channel `q` (the `n` of the `q`-th pair visited in `sph.py` 93-111). -/
def acnOrder (q : ℕ) : ℕ := Nat.sqrt q
/-- Degree of ACN channel `q` (the `m` of the `q`-th pair visited in `sph.py` 93-111). -/
def acnDegree (q : ℕ) : ℤ := (q : ℤ) - (acnOrder q : ℤ) ^ 2 - acnOrder q

/-- `sph.py` 93-111: the real SH row as a vector indexed by the column
(equal to `shRow`, theorem `C10_shRow_vector`). -/
noncomputable def shVec (N : ℕ) (azi zen : ℝ) : Fin ((N + 1) ^ 2) → ℝ :=
  fun q => realSH (acnOrder q) (acnDegree q) azi zen

/-- `sph.py` 27-112: the real SH matrix for directions `(azi q, zen q)` as a Mathlib matrix
(rows are `shVec`). -/
noncomputable def shMat {Q : ℕ} (N : ℕ) (azi zen : Fin Q → ℝ) : Matrix (Fin Q) (Fin ((N + 1) ^ 2)) ℝ :=
  fun q => shVec N (azi q) (zen q)

/-- `sph.py` 773-788: `repeat_per_order` as a vector indexed by the ACN channel
(equal to `repeatPerOrder`, theorem `C10_repeatPerOrder_vector`). -/
def repVec (N : ℕ) (c : ℕ → ℝ) : Fin ((N + 1) ^ 2) → ℝ := fun q => c (acnOrder q)

end Verif.Sph
