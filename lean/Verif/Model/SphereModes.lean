import Mathlib.Analysis.SpecialFunctions.Trigonometric.Basic
import Mathlib.Analysis.Complex.Basic
import Verif.Model.Base

/-!
Model of `/repo/spaudiopy/sph.py` 791-951: `spherical_hn2`, `mode_strength`, `pressure_on_sphere`, `binaural_coloration_compensation`.
-/

namespace Verif.Sph
open Real

/-- `scipy.special.spherical_jn(n, z)` (`sph.py` 815, 840-845), external, by its definition: closed form at orders 0 and 1, three-term recurrence above,
limit values at 0. -/
noncomputable def sphJ (n : ℕ) (z : ℝ) : ℝ :=
  if z = 0 then (if n = 0 then 1 else 0) else
  match n with
  | 0 => sin z / z
  | 1 => sin z / z ^ 2 - cos z / z
  | n + 2 => (2 * (n + 1) + 1) / z * sphJ (n + 1) z - sphJ n z

/-- `scipy.special.spherical_yn(n, z)` (`sph.py` 814) for `z ≠ 0`, external, by its definition (`-inf` at 0). -/
noncomputable def sphY : ℕ → ℝ → ℝ
  | 0, z => -(cos z / z)
  | 1, z => -(cos z / z ^ 2) - sin z / z
  | n + 2, z => (2 * (n + 1) + 1) / z * sphY (n + 1) z - sphY n z

/-- The derivative that `spherical_jn`/`spherical_yn` return with `derivative=True` (`sph.py` 814-815, 843-844), for `z ≠ 0`. -/
noncomputable def sphDeriv (f : ℕ → ℝ → ℝ) (n : ℕ) (z : ℝ) : ℝ :=
  match n with
  | 0 => -f 1 z
  | n + 1 => f n z - (n + 2) / z * f (n + 1) z

/-- `sph.py` 791-815 `spherical_hn2` for `z ≠ 0`. -/
noncomputable def sphHn2 (n : ℕ) (z : ℝ) (derivative : Bool) : ℂ :=
  let j := if derivative then sphDeriv sphJ n z else sphJ n z
  let y := if derivative then sphDeriv sphY n z else sphY n z
  (j : ℂ) - Complex.I * (y : ℂ)

/-- The argument `sphere_type` (`sph.py` 818). -/
inductive SphereType
  | openSphere | rigid | other
  deriving DecidableEq, Repr

/-- `sph.py` 818-848 `mode_strength` at one `kr`; `none` is `nan`, which the rigid sphere gives at `kr = 0` (`spherical_yn` is infinite there). -/
noncomputable def modeStrength (n : ℕ) (kr : ℝ) (t : SphereType) : Py (Option ℂ) :=
  match t with
  | .openSphere => .ok (some (4 * (π : ℂ) * Complex.I ^ n * (sphJ n kr : ℂ)))
  | .rigid => .ok (if kr = 0 then none else
      some (4 * (π : ℂ) * Complex.I ^ n * ((sphJ n kr : ℂ) - (((sphDeriv sphJ n kr : ℝ) : ℂ) / sphHn2 n kr true) * sphHn2 n kr false)))
  | .other => .error .valueError

/-- `sph.py` 880: one summand without its weight (`nan` at `kr = 0`). -/
noncomputable def modePower (n : ℕ) (kr : ℝ) : Option ℝ :=
  match modeStrength n kr .rigid with
  | .ok (some b) => some ((2 * (n : ℝ) + 1) * ‖b‖ ^ 2)
  | _ => none

/-- The loop of `sph.py` 879-880 over the orders `0 … k-1`; `weights[n]` raises `IndexError` beyond the end of the weights. -/
noncomputable def powerSum (w : ℕ → Option ℝ) (kr : ℝ) : ℕ → Py (Option ℝ)
  | 0 => .ok (some 0)
  | n + 1 => (powerSum w kr n).bind fun p => match w n with
    | none => .error .indexError
    | some wn => .ok (p.bind fun p => (modePower n kr).map fun m => p + wn * m)

/-- `weights[n]` (`sph.py` 877-880); `weights=None` is 1 for every order. -/
def weightAt (weights : Option (List ℝ)) (n : ℕ) : Option ℝ :=
  match weights with
  | none => some 1
  | some w => w[n]?

/-- `sph.py` 851-881 `pressure_on_sphere` at one `kr` (of a floating point array); `N < 0` sums nothing.
Simplification: a negative weighted sum (numpy: `nan`) has root 0; theorems exclude it. -/
noncomputable def pressureOnSphere (N : ℤ) (kr : ℝ) (weights : Option (List ℝ)) : Py (Option ℝ) :=
  (powerSum (weightAt weights) kr (N + 1).toNat).map fun p =>
    p.map fun p => 1 / (4 * π) * √p

/-- `sph.py` 942-943: `kr` of a frequency. -/
noncomputable def krOf (f r0 : ℝ) : ℝ := 2 * π * f / 343 * r0

/-- `sph.py` 947-950: the gain at one `kr`; `nan` becomes 1.  Simplification: a vanishing denominator (numpy: `inf`) divides by zero; theorems exclude it. -/
noncomputable def compGain (Nfull : ℤ) (N : ℕ) (kr : ℝ) (w : Option (List ℝ)) : Py ℝ :=
  (pressureOnSphere Nfull kr none).bind fun a => (pressureOnSphere N kr w).map fun b =>
    match a, b with
    | some a, some b => a / b
    | _, _ => 1

/-- `sph.py` 884-951 `binaural_coloration_compensation`; `kr[-1]` of no frequencies raises `IndexError`. -/
noncomputable def colorationCompensation (N : ℕ) (f : List ℝ) (r0 : ℝ) (w : Option (List ℝ)) : Py (List ℝ) :=
  match f.getLast? with
  | none => .error .indexError
  | some last => f.mapM fun fi => compGain ⌈krOf last r0⌉ N (krOf fi r0) w

end Verif.Sph
