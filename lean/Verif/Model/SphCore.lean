import Verif.Model.SphRot
import Mathlib.Analysis.SpecialFunctions.Pow.Real
import Mathlib.LinearAlgebra.Matrix.NonsingularInverse

/-!
Model of the rest of `/repo/spaudiopy/sph.py`: transforms (115-219), format conversions (442-633), modal weights (636-729,
954-1128), energy vector (732-763), filter bank and multiplication (1131-1299). All with real spherical harmonics.
-/

namespace Verif.Sph
open Real

/-- `sph.py` 115-154 `sht` for the SH matrix `Y` (given as `Y_nm` or computed); `w` is the optional `weights`.
Simplification: shapes are fixed by the types, real SH (conjugation is the identity). -/
noncomputable def sht {Q K S : ℕ} (Y : Matrix (Fin Q) (Fin K) ℝ) (w : Option (Fin Q → ℝ))
    (f : Matrix (Fin Q) (Fin S) ℝ) : Matrix (Fin K) (Fin S) ℝ :=
  match w with
  | none => ((4 * π / Q) • Y).transpose * f
  | some w => Y.transpose * (Matrix.diagonal w * f)

/-- `sph.py` 190-219 `inverse_sht` with `sh_type = 'real'`; `Nopt` is the optional `N_sph`. Rows above order `N` are cut off,
too few rows make `np.matmul` raise `ValueError`. -/
noncomputable def inverseSht {K S Q : ℕ} (F : Matrix (Fin K) (Fin S) ℝ) (azi zen : Fin Q → ℝ) (Nopt : Option ℕ) :
    Py (Matrix (Fin Q) (Fin S) ℝ) :=
  if Nopt = none ∧ K = 0 then .ok 0 else
    let N := match Nopt with | some N => N | none => (shOrder K).toNat
    if h : (N + 1) ^ 2 ≤ K then .ok (shMat N azi zen * F.submatrix (Fin.castLE h) id)
    else .error .valueError

/-- Specification of `np.linalg.lstsq(A, b, rcond=None)[0]` (used in `sph.py` 187): the minimum-norm minimiser of
`‖A x - b‖`. External routine. -/
structure IsLstsq {Q K S : ℕ} (A : Matrix (Fin Q) (Fin K) ℝ) (b : Matrix (Fin Q) (Fin S) ℝ)
    (x : Matrix (Fin K) (Fin S) ℝ) : Prop where
  min : ∀ (s : Fin S) (y : Fin K → ℝ),
    ∑ q, ((A.mulVec (fun k => x k s)) q - b q s) ^ 2 ≤ ∑ q, ((A.mulVec y) q - b q s) ^ 2
  least : ∀ (s : Fin S) (y : Fin K → ℝ),
    ∑ q, ((A.mulVec y) q - b q s) ^ 2 = ∑ q, ((A.mulVec (fun k => x k s)) q - b q s) ^ 2 →
    ∑ k, x k s ^ 2 ≤ ∑ k, y k ^ 2

/-- `sph.py` 157-187 `sht_lstsq`, with the external least squares solver as a parameter. -/
noncomputable def shtLstsq {Q S : ℕ} (lstsq : (K : ℕ) → Matrix (Fin Q) (Fin K) ℝ → Matrix (Fin Q) (Fin S) ℝ →
    Matrix (Fin K) (Fin S) ℝ) (f : Matrix (Fin Q) (Fin S) ℝ) (N : ℕ) (azi zen : Fin Q → ℝ) :
    Matrix (Fin ((N + 1) ^ 2)) (Fin S) ℝ :=
  lstsq _ (shMat N azi zen) f

/-- `sph.py` 458-465 / 484-491: multiply by one factor `c n` per order along the SH axis (`axis1` is `axis == 1`). The factor
array has `(N+1)²` entries, numpy broadcasting accepts it when that is the size of the axis or one. -/
noncomputable def scalePerOrder (c : ℕ → ℝ) (F : NpMat) (axis1 : Bool) : Py NpMat :=
  let K := if axis1 then F.cols else F.rows
  let n_norm := repeatPerOrder ((List.range (shOrder K + 1).toNat).map c)
  if n_norm.length = K ∨ n_norm.length = 1 then
    .ok ⟨F.rows, F.cols, fun i j =>
      let k := if axis1 then j.val else i.val
      n_norm.getD (if n_norm.length = 1 then 0 else k) 0 * F.val i j⟩
  else .error .valueError

/-- `sph.py` 442-465 `n3d_to_sn3d` (two-dimensional input, `axis` 0 or 1). -/
noncomputable def n3dToSn3d (F : NpMat) (axis1 : Bool) : Py NpMat := scalePerOrder (fun n => 1 / √(2 * n + 1)) F axis1

/-- `sph.py` 468-491 `sn3d_to_n3d` (two-dimensional input, `axis` 0 or 1). -/
noncomputable def sn3dToN3d (F : NpMat) (axis1 : Bool) : Py NpMat := scalePerOrder (fun n => √(2 * n + 1)) F axis1

/-- `sph.py` 497-500: the tetrahedron of `platonic_solid`. -/
noncomputable def tetrahedron : Matrix (Fin 4) (Fin 3) ℝ :=
  (1 / √3) • !![1, 1, 1; 1, -1, -1; -1, 1, -1; -1, -1, 1]

/-- `sph.py` 494-501 `platonic_solid`: for other names `u` is returned without having been assigned (`UnboundLocalError`). -/
noncomputable def platonicSolid (shape : String) : Py (Matrix (Fin 4) (Fin 3) ℝ) :=
  if shape ∈ ["tetra", "tetrahedron"] then .ok tetrahedron else .error .unboundLocalError

/-- `sph.py` 524-527 / 551-554: the conversion matrix `M`, `W_weight` defaults to 1. -/
noncomputable def bMat (w : Option ℝ) : Matrix (Fin 4) (Fin 4) ℝ :=
  √(4 * π) • !![w.getD 1, 0, 0, 0; 0, 0, 0, 1 / √3; 0, 1 / √3, 0, 0; 0, 0, 1 / √3, 0]

/-- `sph.py` 504-528 `sh_to_b`: every column `c` becomes `np.dot(c, M.T)`; `ValueError` unless there are four channels.
Simplification: `apply_along_axis` also raises for zero samples. -/
noncomputable def shToB (F : NpMat) (w : Option ℝ) : Py NpMat := NpMat.matmul ⟨4, 4, bMat w⟩ F

/-- `sph.py` 531-557 `b_to_sh`: `np.linalg.inv` raises `LinAlgError` for a singular matrix. -/
noncomputable def bToSh (B : NpMat) (w : Option ℝ) : Py NpMat :=
  if (bMat w).det = 0 then .error .linAlgError else NpMat.matmul ⟨4, 4, (bMat w)⁻¹⟩ B

/-- `sph.py` 560-581 `soundfield_to_b` (four capsule signals). -/
noncomputable def soundfieldToB {S : ℕ} (sig : Matrix (Fin 4) (Fin S) ℝ) (w : Option ℝ) : Py NpMat :=
  let dir := fun q : Fin 4 => Utils.cart2sph (tetrahedron q 0) (tetrahedron q 1) (tetrahedron q 2) false false
  let Y := shMat 1 (fun q => (dir q).1) (fun q => (dir q).2.1)
  shToB ⟨_, _, sht Y none sig⟩ w

/-- `sph.py` 584-592 `src_to_b`: `np.outer` flattens the gain array, four rows per direction. -/
noncomputable def srcToB (sig : List ℝ) (dirs : List (ℝ × ℝ)) : List (List ℝ) :=
  dirs.flatMap fun d =>
    let p := Utils.sph2cart d.1 d.2
    [1, p.1, p.2.1, p.2.2].map fun g => sig.map (g * ·)

/-- `sph.py` 595-633 `src_to_sh` with real SH. -/
noncomputable def srcToSh {n S : ℕ} (sig : Matrix (Fin n) (Fin S) ℝ) (azi zen : Fin n → ℝ) (N : ℕ) :
    Matrix (Fin ((N + 1) ^ 2)) (Fin S) ℝ := (shMat N azi zen).transpose * sig

/-- `sph.py` 636-692 `bandlimited_dirac` for one angle `d`; `w` is the optional `w_n`. -/
noncomputable def bandlimitedDirac (N : ℕ) (d : ℝ) (w : Option (List ℝ)) : Py ℝ :=
  let w := w.getD (List.replicate (N + 1) 1)
  if w.length = N + 1 then
    .ok (∑ n ∈ Finset.range (N + 1), w.getD n 0 * (2 * n + 1) / (4 * π) * evalLegendre n (cos d))
  else .error .assertionError

/-- `sph.py` 695-729 `max_rE_weights`. -/
noncomputable def maxREWeights (N : ℕ) : List ℝ :=
  let theta := 137.9 * (π / 180) / (N + 1.51)
  (List.range (N + 1)).map fun n => evalLegendre n (cos theta)

/-- `sph.py` 732-763 `r_E` for one source; `none` stands for the `nan` vector which `1/0 * 0` gives. -/
noncomputable def rE {Q : ℕ} (p : Fin Q → Fin 3 → ℝ) (g : Fin Q → ℝ) : Option (Fin 3 → ℝ) × ℝ :=
  let E := ∑ q, g q ^ 2
  let v : Option (Fin 3 → ℝ) := if E = 0 then none else some fun c => 1 / E * ∑ q, g q ^ 2 * p q c
  (v, match v with | none => 0 | some v => √(∑ c, v c ^ 2))

/-- `sph.py` 753-757, 763: the shape check of `r_E`. -/
noncomputable def rEChecked (p : List (Fin 3 → ℝ)) (g : List ℝ) : Py (Option (Fin 3 → ℝ) × ℝ) :=
  if p.length = g.length then .ok (rE (fun q : Fin p.length => p[q]) (fun q => g.getD q 0))
  else .error .assertionError

/-- `sph.py` 954-976 `unity_gain`. Simplification: a vanishing sum (numpy: `inf`/`nan`) is division by zero. -/
noncomputable def unityGain (w : List ℝ) : List ℝ :=
  let a := w.zipIdx.foldl (fun a p => a + (2 * p.2 + 1) / (4 * π) * p.1) 0
  w.map (· / a)

/-- `sph.py` 979-1009 `hypercardioid_modal_weights`. -/
noncomputable def hypercardioidWeights (N : ℕ) : List ℝ := List.replicate (N + 1) ((4 * π) / (N + 1) ^ 2)

/-- `sph.py` 1012-1048 `cardioid_modal_weights`. -/
noncomputable def cardioidWeights (N : ℕ) : List ℝ :=
  ((List.range (N + 1)).map fun n => ((N.factorial : ℝ) * N.factorial) / ((N + n + 1).factorial * (N - n).factorial)).map
    (4 * π * ·)

/-- `sph.py` 1082-1084 / 1126-1128: division by the band-limited Dirac at angle 0 when `UNITAMP`. -/
noncomputable def unitAmp (N : ℕ) (c : List ℝ) (unitamp : Bool) : Py (List ℝ) := do
  let a ← if unitamp then bandlimitedDirac N 0 (some c) else pure 1
  return c.map (· / a)

/-- `sph.py` 1051-1084 `maxre_modal_weights`. -/
noncomputable def maxreModalWeights (N : ℕ) (unitamp : Bool := true) : Py (List ℝ) := unitAmp N (maxREWeights N) unitamp

/-- `sph.py` 1087-1128 `butterworth_modal_weights` (`k ≥ 0`, `n_c > 0`). -/
noncomputable def butterworthWeights (N : ℕ) (k nc : ℝ) (unitamp : Bool := true) : Py (List ℝ) :=
  unitAmp N ((List.range (N + 1)).map fun n : ℕ => 1 / √(1 + ((n : ℝ) / nc) ^ (2 * k))) unitamp

/-- Modes of `sph_filterbank_reconstruction_factor` (`sph.py` 1158-1165). -/
inductive RecMode | amplitude | energy | other
  deriving DecidableEq

/-- `sph.py` 1131-1166 `sph_filterbank_reconstruction_factor`, given one row of beam coefficients. -/
noncomputable def reconstructionFactor {K : ℕ} (w : Fin (K + 1) → ℝ) (numSecs : ℕ) (mode : RecMode) : Py ℝ :=
  match mode with
  | .amplitude => .ok (√(4 * π) / (w 0 * numSecs))
  | .energy => .ok ((4 * π) / ((∑ k, w k * w k) * numSecs))
  | .other => .error .valueError

/-- Modes of `design_sph_filterbank` (`sph.py` 1234-1255). -/
inductive FbMode | perfect | energy | pinv | other
  deriving DecidableEq

/-- `sph.py` 1231, 1248-1249: SH matrix with the columns weighted per order. -/
noncomputable def weightedShMat {J : ℕ} (N : ℕ) (azi zen : Fin J → ℝ) (c : ℕ → ℝ) :
    Matrix (Fin J) (Fin ((N + 1) ^ 2)) ℝ := fun j q => repVec N c q * shMat N azi zen j q

theorem sq_pos' (N : ℕ) : 0 < (N + 1) ^ 2 := by positivity

/-- `sph.py` 1169-1258 `design_sph_filterbank` with at least one sector (`J + 1`) and one weight per order; the external
`np.linalg.pinv` is a parameter. -/
noncomputable def designFilterbank {J : ℕ} (N : ℕ) (azi zen : Fin (J + 1) → ℝ) (c : ℕ → ℝ) (mode : FbMode)
    (pinv : Matrix (Fin (J + 1)) (Fin ((N + 1) ^ 2)) ℝ → Matrix (Fin ((N + 1) ^ 2)) (Fin (J + 1)) ℝ) :
    Py (Matrix (Fin (J + 1)) (Fin ((N + 1) ^ 2)) ℝ × Matrix (Fin ((N + 1) ^ 2)) (Fin (J + 1)) ℝ) :=
  let A := weightedShMat N azi zen c
  let row0 : Fin ((N + 1) ^ 2 - 1 + 1) → ℝ := fun k => A 0 (Fin.cast (Nat.sub_add_cancel (sq_pos' N)) k)
  let Bs := (weightedShMat N azi zen (fun n => 1 / (c n / c 0))).transpose
  match mode with
  | .perfect => do
    let beta ← reconstructionFactor row0 (J + 1) .amplitude
    return (A, beta • Bs)
  | .energy => do
    let beta ← reconstructionFactor row0 (J + 1) .energy
    return (A, √beta • Bs)
  | .pinv => return (A, pinv A)
  | .other => .error .valueError

/-- `sph.py` 1261-1299 `sh_mult` with real SH. `design t` is the table of t-designs, already as directions
(`load_t_design` 61-110 raises `ValueError` outside 1..21). -/
noncomputable def shMult (design : ℕ → Σ Q : ℕ, (Fin Q → ℝ) × (Fin Q → ℝ)) {K1 K2 : ℕ} (a : Fin K1 → ℝ)
    (b : Fin K2 → ℝ) : Py (Σ K : ℕ, Fin K → ℝ) :=
  let Nout := shOrder K1 + shOrder K2
  if 2 * Nout > 21 then .error .valueError
  else if 2 * Nout < 1 then .error .valueError
  else do
    let ⟨_, azi, zen⟩ := design (2 * Nout).toNat
    let fa ← inverseSht (fun k (_ : Fin 1) => a k) azi zen none
    let fb ← inverseSht (fun k (_ : Fin 1) => b k) azi zen none
    let c := sht (shMat Nout.toNat azi zen) none (fun q s => fa q s * fb q s)
    return ⟨_, fun k => c k 0⟩

end Verif.Sph
