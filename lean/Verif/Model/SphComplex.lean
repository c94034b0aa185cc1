import Verif.Model.SphCore

/-!
Model of the transforms of `/repo/spaudiopy/sph.py` (27-219) with `sh_type = 'complex'`.
-/

namespace Verif.Sph
open Real

/-- `sph.py` 93-111: the complex SH row as a vector indexed by the column. -/
noncomputable def shVecC (N : ℕ) (azi zen : ℝ) : Fin ((N + 1) ^ 2) → ℂ := fun q => sphHarm (acnDegree q) (acnOrder q) azi zen

/-- `sph.py` 27-112: the complex SH matrix. -/
noncomputable def shMatC {Q : ℕ} (N : ℕ) (azi zen : Fin Q → ℝ) : Matrix (Fin Q) (Fin ((N + 1) ^ 2)) ℂ := fun q => shVecC N (azi q) (zen q)

/-- `sph.py` 115-154 `sht` for the complex SH matrix `Y`; `w` is the optional `weights`. -/
noncomputable def shtC {Q K S : ℕ} (Y : Matrix (Fin Q) (Fin K) ℂ) (w : Option (Fin Q → ℝ)) (f : Matrix (Fin Q) (Fin S) ℂ) : Matrix (Fin K) (Fin S) ℂ :=
  match w with
  | none => (((4 * π / Q : ℝ) : ℂ) • Y.map (starRingEnd ℂ)).transpose * f
  | some w => (Y.map (starRingEnd ℂ)).transpose * (Matrix.diagonal (fun q => (w q : ℂ)) * f)

/-- `sph.py` 190-219 `inverse_sht` with `sh_type = 'complex'`; `Nopt` is the optional `N_sph`. -/
noncomputable def inverseShtC {K S Q : ℕ} (F : Matrix (Fin K) (Fin S) ℂ) (azi zen : Fin Q → ℝ) (Nopt : Option ℕ) : Py (Matrix (Fin Q) (Fin S) ℂ) :=
  if Nopt = none ∧ K = 0 then .ok 0 else
    let N := match Nopt with | some N => N | none => (shOrder K).toNat
    if h : (N + 1) ^ 2 ≤ K then .ok (shMatC N azi zen * F.submatrix (Fin.castLE h) id)
    else .error .valueError

/-- `sph.py` 157-187 `sht_lstsq` with complex SH, the external least squares solver as a parameter. -/
noncomputable def shtLstsqC {Q S : ℕ} (lstsq : (K : ℕ) → Matrix (Fin Q) (Fin K) ℂ → Matrix (Fin Q) (Fin S) ℂ → Matrix (Fin K) (Fin S) ℂ)
    (f : Matrix (Fin Q) (Fin S) ℂ) (N : ℕ) (azi zen : Fin Q → ℝ) : Matrix (Fin ((N + 1) ^ 2)) (Fin S) ℂ :=
  lstsq _ (shMatC N azi zen) f

/-- `sph.py` 1261-1299 `sh_mult` with `sh_type = 'complex'`. The coefficients passed are converted to real numbers (1287-1288). `design t` is the table of
t-designs, already as directions (`load_t_design` 61-110 raises `ValueError` outside 1..21). -/
noncomputable def shMultC (design : ℕ → Σ Q : ℕ, (Fin Q → ℝ) × (Fin Q → ℝ)) {K1 K2 : ℕ} (a : Fin K1 → ℝ) (b : Fin K2 → ℝ) : Py (Σ K : ℕ, Fin K → ℂ) :=
  let Nout := shOrder K1 + shOrder K2
  if 2 * Nout > 21 then .error .valueError
  else if 2 * Nout < 1 then .error .valueError
  else do
    let ⟨_, azi, zen⟩ := design (2 * Nout).toNat
    let fa ← inverseShtC (fun k (_ : Fin 1) => (a k : ℂ)) azi zen none
    let fb ← inverseShtC (fun k (_ : Fin 1) => (b k : ℂ)) azi zen none
    let c := shtC (shMatC Nout.toNat azi zen) none (fun q s => fa q s * fb q s)
    return ⟨_, fun k => c k 0⟩

end Verif.Sph
