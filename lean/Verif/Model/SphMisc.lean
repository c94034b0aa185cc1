import Verif.Model.SphCore
import Verif.Model.SphComplex
import Verif.Model.Utils

/-!
Model of `/repo/spaudiopy/sph.py` 429-439 `check_cond_sht` and 766-770 `project_on_sphere`.
-/

namespace Verif.Sph

/-- `sph.py` 766-770 `project_on_sphere` for one point. The origin (`nan` in numpy) is excluded in the theorems. -/
noncomputable def projectOnSphere (x y z : ℝ) : ℝ × ℝ × ℝ :=
  let p := Utils.cart2sph x y z false false
  Utils.sph2cart p.1 p.2.1 1

/-- `sph.py` 431-432: the default of `lim`. -/
noncomputable def condLimit (N : ℕ) (lim : Option ℝ) : ℝ := lim.getD (N + N / 2)

/-- `sph.py` 437-438: whether the message is printed; `none` is an infinite condition number. -/
noncomputable def condReported (lim : ℝ) : Option ℝ → Bool
  | none => true
  | some c => decide (lim < c)

/-- `sph.py` 429-439 `check_cond_sht` with real SH: the returned condition number and whether it is reported. `cond` is `np.linalg.cond`. -/
noncomputable def checkCondSht {Q : ℕ} (cond : {n : ℕ} → Matrix (Fin n) (Fin n) ℝ → Option ℝ) (N : ℕ) (azi zen : Fin Q → ℝ) (lim : Option ℝ) :
    Option ℝ × Bool :=
  let Y := shMat N azi zen
  let c := cond (Y.transpose * Y)
  (c, condReported (condLimit N lim) c)

/-- `sph.py` 429-439 `check_cond_sht` with complex SH. -/
noncomputable def checkCondShtC {Q : ℕ} (cond : {n : ℕ} → Matrix (Fin n) (Fin n) ℂ → Option ℝ) (N : ℕ) (azi zen : Fin Q → ℝ) (lim : Option ℝ) :
    Option ℝ × Bool :=
  let Y := shMatC N azi zen
  let c := cond ((Y.map (starRingEnd ℂ)).transpose * Y)
  (c, condReported (condLimit N lim) c)

end Verif.Sph
