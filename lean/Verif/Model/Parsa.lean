import Verif.Model.SphCore
import Verif.Model.Signals
import Verif.Model.Process
import Mathlib.LinearAlgebra.Matrix.PosDef

/-!
Model of the beamforming and covariance part of `/repo/spaudiopy/parsa.py` (lines 41-357) and of `render_stereo_sdm` (489-518).
-/

namespace Verif.Parsa
open Real Sph

/-! ### Beamformers -/

/-- The `pattern` argument of `sh_beamformer_from_pattern` (`parsa.py` 65): a string (as its characters) or an array of modal weights. -/
inductive Pattern
  | name (s : List Char)
  | weights (c : List ℝ)

/-- `parsa.py` 65-75: the modal weights of a pattern, `pattern.lower()` included. -/
noncomputable def patternWeights (p : Pattern) (N : ℕ) : Py (List ℝ) :=
  match p with
  | .weights c => .ok c
  | .name s =>
    let l := s.map Char.toLower
    if l = "hypercardioid".toList ∨ l = "max_di".toList then .ok (hypercardioidWeights N)
    else if l = "cardioid".toList ∨ l = "inphase".toList then .ok (cardioidWeights N)
    else if l = "max_re".toList ∨ l = "maxre".toList then maxreModalWeights N
    else .error .valueError

/-- `parsa.py` 41-80 `sh_beamformer_from_pattern` for `J` steering directions (equally many azimuths and zeniths). -/
noncomputable def shBeamformerFromPattern {J : ℕ} (p : Pattern) (N : ℕ) (azi zen : Fin J → ℝ) :
    Py (Matrix (Fin J) (Fin ((N + 1) ^ 2)) ℝ) :=
  (patternWeights p N).bind fun c =>
    if c.length = N + 1 then .ok (fun j q => (repeatPerOrder c).getD q 0 * shMat N azi zen j q)
    else .error .assertionError

/-- `parsa.py` 83-116 `sh_beamform` for two-dimensional weights and signals; `np.matmul` raises `ValueError` if the numbers of SH
channels differ. -/
noncomputable def shBeamform {J K K' S : ℕ} (W : Matrix (Fin J) (Fin K) ℝ) (X : Matrix (Fin K') (Fin S) ℝ) : Py (Matrix (Fin J) (Fin S) ℝ) :=
  if h : K = K' then .ok (W * X.submatrix (Fin.cast h) id) else .error .valueError

/-! ### Covariance analysis -/

/-- Specification of `np.linalg.eigh(S)` for a symmetric `S` (used in `parsa.py` 196, 245): eigenvalues in ascending order and
orthonormal eigenvectors in the columns of `v`.  External routine; `eigvalsh` (`parsa.py` 144) returns the same `w`. -/
structure IsEigh {L : ℕ} (S : Matrix (Fin L) (Fin L) ℝ) (w : Fin L → ℝ) (v : Matrix (Fin L) (Fin L) ℝ) : Prop where
  mono : Monotone w
  orth : v.transpose * v = 1
  decomp : S = v * Matrix.diagonal w * v.transpose

/-- `np.var` (`parsa.py` 149) of a non-empty array. -/
noncomputable def npVar (w : List ℝ) : ℝ := (w.map fun x => (x - w.sum / w.length) ^ 2).sum / w.length

/-- One comparison `w[i+1] / (w[i] + 10e-8) > a` (`parsa.py` 152-153); a vanishing denominator gives `inf`, `nan` or `-inf`, of which only
`inf` compares greater. -/
noncomputable def ratioExceeds (a lo hi : ℝ) : Prop := if lo + 10e-8 = 0 then 0 < hi else a < hi / (lo + 10e-8)

open Classical in
/-- `c > a` as a list of booleans (`parsa.py` 152-153). -/
noncomputable def jumps (w : List ℝ) (a : ℝ) : List Bool := List.zipWith (fun lo hi => decide (ratioExceeds a lo hi)) w w.tail

/-- `np.argmax` of a boolean array (`parsa.py` 153): the first `True`, 0 if there is none; `ValueError` on an empty array. -/
def boolArgmax (b : List Bool) : Py ℕ :=
  match b with
  | [] => .error .valueError
  | _ :: _ => .ok (if true ∈ b then b.idxOf true else 0)

/-- `parsa.py` 119-155 `estimate_num_sources` for eigenvalues `w` (given, or `eigvalsh(cov_x)`).  Without eigenvalues `2/len(w)` divides by
zero; with `a` given the variance is `nan`, not below `a`, and `np.argmax` raises. -/
noncomputable def estimateNumSources (w : List ℝ) (a : Option ℝ) : Py ℤ :=
  if w = [] then (match a with | none => .error .zeroDivisionError | some _ => .error .valueError)
  else
    let a := a.getD (1 + 2 / w.length)
    if npVar w < a then .ok 0
    else (boolArgmax (jumps w a)).map fun cn : ℕ => (w.length : ℤ) - 1 - cn

/-- Integer indexing of a one-dimensional array (`parsa.py` 201). -/
def npIndex {L : ℕ} (w : Fin L → ℝ) (i : ℤ) : Py ℝ :=
  if h : 0 ≤ i ∧ i < L then .ok (w ⟨i.toNat, by omega⟩)
  else if h : -(L : ℤ) ≤ i ∧ i < 0 then .ok (w ⟨((L : ℤ) + i).toNat, by omega⟩)
  else .error .indexError

/-- Columns `c:` of a matrix or entries `c:` of a vector (`parsa.py` 204). -/
def tailIdx (L c : ℕ) (i : Fin (L - c)) : Fin L := ⟨c + i, by omega⟩

/-- `parsa.py` 200-205: the split for a given number of sources. -/
noncomputable def splitCov {L : ℕ} (w : Fin L → ℝ) (v : Matrix (Fin L) (Fin L) ℝ) (k : ℤ) :
    Py (Matrix (Fin L) (Fin L) ℝ × Matrix (Fin L) (Fin L) ℝ) :=
  (npIndex w (-(k + 1))).map fun wr =>
    let cut := sliceBound L (-k)
    let wnn : Fin L → ℝ := fun i => if cut ≤ i then wr else w i
    let Snn := v * Matrix.diagonal wnn * v.transpose
    let vt := v.submatrix id (tailIdx L cut)
    let Spp := vt * Matrix.diagonal (fun i => w (tailIdx L cut i) - wr) * vt.transpose
    (Spp, Snn)

/-- `parsa.py` 158-205 `separate_cov`; `eigh` is the external routine. -/
noncomputable def separateCov (eigh : (n : ℕ) → Matrix (Fin n) (Fin n) ℝ → (Fin n → ℝ) × Matrix (Fin n) (Fin n) ℝ) {L M : ℕ}
    (S : Matrix (Fin L) (Fin M) ℝ) (numCut : Option ℤ) : Py (Matrix (Fin L) (Fin L) ℝ × Matrix (Fin L) (Fin L) ℝ) :=
  if h : L = M then
    let r := eigh L (S.submatrix id (Fin.cast h))
    match numCut with
    | some k => splitCov r.1 r.2 k
    | none => (estimateNumSources (List.ofFn r.1) none).bind (splitCov r.1 r.2)
  else .error .assertionError

/-- The SH matrix for as many channels as a covariance has (`parsa.py` 241-244, 293-296, 354-355): `N_sph = int(sqrt(L) - 1)`; a
covariance whose size is no square number does not fit the product that follows (`ValueError`).  Simplification: at least one channel. -/
noncomputable def steerMat {g : ℕ} (L : ℕ) (azi zen : Fin g → ℝ) : Py (Matrix (Fin g) (Fin L) ℝ) :=
  let N := (shOrder L).toNat
  if h : L = (N + 1) ^ 2 then .ok ((shMat N azi zen).submatrix id (Fin.cast h)) else .error .valueError

/-- `parsa.py` 208-249 `sh_music`, for equally many azimuths and zeniths.  Columns `:-num_src` of the eigenvectors. -/
noncomputable def shMusic (eigh : (n : ℕ) → Matrix (Fin n) (Fin n) ℝ → (Fin n → ℝ) × Matrix (Fin n) (Fin n) ℝ) {L M g : ℕ}
    (S : Matrix (Fin L) (Fin M) ℝ) (numSrc : ℤ) (azi zen : Fin g → ℝ) : Py (Fin g → ℝ) :=
  if h : L = M then
    (steerMat L azi zen).map fun Y =>
      let v := (eigh L (S.submatrix id (Fin.cast h))).2
      let cut := sliceBound L (-numSrc)
      let Qn : Matrix (Fin L) (Fin (min cut L)) ℝ := v.submatrix id (Fin.castLE (min_le_right _ _))
      let a := Qn.transpose * Y.transpose
      fun j => 1 / ((∑ i, a i j * a i j) + 10e-12)
  else .error .assertionError

/-- `np.linalg.inv` (`parsa.py` 297, 356-357): `LinAlgError` for a singular matrix. -/
noncomputable def npInv {L : ℕ} (S : Matrix (Fin L) (Fin L) ℝ) : Py (Matrix (Fin L) (Fin L) ℝ) :=
  if S.det = 0 then .error .linAlgError else .ok S⁻¹

/-- `parsa.py` 252-301 `sh_mvdr`.  Simplification: a vanishing diagonal entry of `a` divides by zero (impossible for positive definite
covariances). -/
noncomputable def shMvdr {L M g : ℕ} (S : Matrix (Fin L) (Fin M) ℝ) (azi zen : Fin g → ℝ) : Py (Matrix (Fin g) (Fin L) ℝ) :=
  if h : L = M then
    (npInv (S.submatrix id (Fin.cast h))).bind fun Sinv => (steerMat L azi zen).map fun Y =>
      let c := Y * Sinv
      let a := Y * Sinv * Y.transpose
      fun i q => c i q / a i i
  else .error .assertionError

/-- `parsa.py` 304-357 `sh_lcmv`, with the length checks of lines 351-352. -/
noncomputable def shLcmv {L M : ℕ} (S : Matrix (Fin L) (Fin M) ℝ) (azi zen gain : List ℝ) : Py (Fin L → ℝ) :=
  if h : L = M then
    if azi.length ≠ zen.length then .error .assertionError
    else if azi.length ≠ gain.length then .error .assertionError
    else
      (npInv (S.submatrix id (Fin.cast h))).bind fun Sinv =>
        (steerMat L (fun i : Fin azi.length => azi.getD i 0) (fun i => zen.getD i 0)).bind fun Y =>
          let V := Y.transpose
          (npInv (V.transpose * Sinv * V)).map fun G =>
            Matrix.vecMul (Matrix.vecMul (Matrix.vecMul (fun i : Fin azi.length => gain.getD i 0) G) V.transpose) Sinv
  else .error .assertionError

/-! ### Stereo rendering -/

/-- The loop of `parsa.py` 512-517 (entries beyond the shortest input keep their zero). -/
noncomputable def stereoLoop : List ℝ → List ℝ → List ℝ → List (ℝ × ℝ)
  | p :: ps, phi :: phis, _ :: thetas =>
    (0 + p * (0.5 * (1 + cos (phi - π / 2))), 0 + p * (0.5 * (1 + cos (phi + π / 2)))) :: stereoLoop ps phis thetas
  | ps, _, _ => ps.map fun _ => (0, 0)

/-- `parsa.py` 489-518 `render_stereo_sdm`. -/
noncomputable def renderStereoSdm (p phi theta : List ℝ) : List ℝ × List ℝ :=
  ((stereoLoop p phi theta).map Prod.fst, (stereoLoop p phi theta).map Prod.snd)

end Verif.Parsa
