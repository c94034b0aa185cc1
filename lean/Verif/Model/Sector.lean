import Verif.Model.SphCore

/-!
Model of `/repo/spaudiopy/parsa.py` 360-387: `sh_sector_beamformer`.
-/

namespace Verif.Parsa
open Real Sph

/-- `parsa.py` 378-381: the four first-order patterns `w_nm`, `x_nm`, `y_nm`, `z_nm`. -/
noncomputable def firstOrderPatterns : List (Fin 4 → ℝ) :=
  [√(4 * π) • ![1, 0, 0, 0], √(4 / 3 * π) • ![0, 0, 0, 1], √(4 / 3 * π) • ![0, 1, 0, 0], √(4 / 3 * π) • ![0, 0, 1, 0]]

/-- One assignment `A_wxyz[row, :] = sh_mult(pattern, A_nm[idx_s, :])` (`parsa.py` 383-386) into a row with `cols` entries; a product of
another length does not fit (`ValueError`; products have at least four entries, so a single value is never broadcast). -/
noncomputable def sectorRow (design : ℕ → Σ Q : ℕ, (Fin Q → ℝ) × (Fin Q → ℝ)) {K : ℕ} (cols : ℕ) (a : Fin K → ℝ) (p : Fin 4 → ℝ) : Py (List ℝ) :=
  (shMult design p a).bind fun c => if c.1 = cols then .ok (List.ofFn c.2) else .error .valueError

/-- The loop `parsa.py` 382-386 with `cols` columns. -/
noncomputable def sectorRows (design : ℕ → Σ Q : ℕ, (Fin Q → ℝ) × (Fin Q → ℝ)) {J K : ℕ} (cols : ℕ) (A : Fin J → Fin K → ℝ) : Py (List (List ℝ)) :=
  ((List.finRange J).mapM fun s => firstOrderPatterns.mapM (sectorRow design cols (A s))).map List.flatten

/-- `parsa.py` 360-387 `sh_sector_beamformer`: four rows per sector, the columns of the result array are counted in line 376. -/
noncomputable def sectorBeamformer (design : ℕ → Σ Q : ℕ, (Fin Q → ℝ) × (Fin Q → ℝ)) {J K : ℕ} (A : Matrix (Fin J) (Fin K) ℝ) : Py (List (List ℝ)) :=
  sectorRows design ((pyInt (√(K : ℝ) + 1)).toNat ^ 2) A

end Verif.Parsa
