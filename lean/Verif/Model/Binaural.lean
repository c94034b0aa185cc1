import Verif.Model.Signals
import Verif.Model.Decoder

/-!
Model of the binaural renderers: `/repo/spaudiopy/decoder.py` 248-290 `binauralize` and 1295-1323 `sh2bin`.
-/

namespace Verif.Decoder

open Verif.Utils Verif.Sig

/-- `np.atleast_2d` signals with the distance attenuation of `decoder.py` 274-277, as rows.
Simplification: a loudspeaker at the listener position divides by zero; theorems exclude it. -/
noncomputable def attenuated {L R S : ℕ} (h : Hull L) (ls : Matrix (Fin R) (Fin S) ℝ) (l : Fin L) (hl : (l : ℕ) < R) : List ℝ :=
  let rel := h.points l - h.listener
  let r := (cart2sph (rel 0) (rel 1) (rel 2) false false).2.2
  List.ofFn fun s => 1 / r ^ h.a * ls ⟨l, hl⟩ s

/-- numpy `acc += x` for one-dimensional arrays (`decoder.py` 288-289). -/
def addInto (acc x : List ℝ) : Py (List ℝ) :=
  if x.length = acc.length then .ok (List.zipWith (· + ·) acc x)
  else
    match x with
    | [v] => .ok (acc.map (· + v))
    | _ => .error .valueError

/-- One iteration of the loudspeaker loop, `decoder.py` 281-289, on the two accumulated ear signals. -/
noncomputable def binauralStep {L : ℕ} (h : Hull L) (hr : HRIRs) (orientation : ℝ × ℝ) (l : Fin L) (x : List ℝ)
    (acc : List ℝ × List ℝ) : Py (List ℝ × List ℝ) :=
  open Classical in
  if ∃ v ∈ x, |v| > 10e-6 then
    let rel := h.points l - h.listener
    let c := cart2sph (rel 0) (rel 1) (rel 2) false false
    (hr.nearestHrirs (c.1 - orientation.1) (c.2.1 - orientation.2)).bind fun ir =>
      (convolve .full x ir.1).bind fun yl => (addInto acc.1 yl).bind fun al =>
        (convolve .full x ir.2).bind fun yr => (addInto acc.2 yr).map fun ar => (al, ar)
  else .ok acc

/-- `decoder.py` 248-290 `binauralize`; `ls` has `R` rows of `S` samples.  `hrirs=None` loads a file (not modelled): the set is a
parameter.  `np.zeros` of a negative length is a `ValueError`. -/
noncomputable def binauralize {L R S : ℕ} (h : Hull L) (ls : Matrix (Fin R) (Fin S) ℝ) (fs : ℝ) (orientation : ℝ × ℝ) (hr : HRIRs) :
    Py (List ℝ × List ℝ) :=
  if hr.fs ≠ fs then .error .assertionError
  else if hR : R = L then
    if S + hr.left.cols < 1 then .error .valueError
    else
      let zero := List.replicate (S + hr.left.cols - 1) (0 : ℝ)
      (List.finRange L).foldlM (fun acc l => binauralStep h hr orientation l (attenuated h ls l (hR ▸ l.2)) acc) (zero, zero)
  else .error .assertionError

/-- Row `k` of a rank two array with `c` columns stored in row-major order (`decoder.py` 1319-1322). -/
def ndRow (data : List ℝ) (c k : ℕ) : List ℝ := (data.drop (k * c)).take c

/-- `np.sum(signal.oaconvolve(sig_nm, np.squeeze(hrirs_nm[e, :, :]), axes=-1), axis=0)` (`decoder.py` 1319-1322).
The squeeze removes the channel axis of a single channel and the tap axis of a single tap, after which `oaconvolve` finds different
ranks (`ValueError`); an empty operand gives an empty array, whose sum is the scalar zero, stacked as one sample. -/
noncomputable def earSum (K S T : ℕ) (sig ir : List ℝ) : Py (List ℝ) :=
  if K = 1 ∨ T = 1 then .error .valueError
  else if K = 0 ∨ S = 0 ∨ T = 0 then .ok [0]
  else .ok ((List.range (S + T - 1)).map fun n => ∑ k ∈ Finset.range K, convAt (ndRow sig S k) (ndRow ir T k) n)

/-- `decoder.py` 1295-1323 `sh2bin`. -/
noncomputable def sh2bin (sig hrirs : NDArray ℝ) : Py (List (List ℝ)) :=
  match sig.shape, hrirs.shape with
  | [K, S], [c, K', T] =>
    if K ≠ K' then .error .assertionError
    else if c < 1 then .error .indexError
    else (earSum K S T sig.data (hrirs.data.take (K * T))).bind fun l =>
      if c < 2 then .error .indexError
      else (earSum K S T sig.data ((hrirs.data.drop (K * T)).take (K * T))).map fun r => [l, r]
  | _, _ => .error .assertionError

end Verif.Decoder
