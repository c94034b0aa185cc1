import Verif.Model.SphComplex

/-!
Model of `/repo/spaudiopy/sph.py` `inverse_sht` (190-219) when the caller passes the matrix `Y_nm`.
-/

namespace Verif.Sph

/-- `sph.py` 190-219 `inverse_sht` with an explicit `Y_nm` (`C` columns, real or complex); the directions are not used then.
`F_nm[:(N_sph + 1) ** 2, :]` keeps `min ((N+1)²) K` rows, and `np.matmul` raises `ValueError` when that is not the number of
columns of `Y_nm`. -/
noncomputable def inverseShtY {R : Type} [CommRing R] {Q C K S : ℕ} (Y : Matrix (Fin Q) (Fin C) R) (F : Matrix (Fin K) (Fin S) R) (Nopt : Option ℕ) :
    Py (Matrix (Fin Q) (Fin S) R) :=
  let N1 : ℕ := match Nopt with
    | some N => N + 1
    | none => (shOrder K + 1).toNat
  if h : C = min (N1 ^ 2) K then .ok (Y * F.submatrix (Fin.castLE (h.le.trans (min_le_right _ _))) id)
  else .error .valueError

end Verif.Sph
