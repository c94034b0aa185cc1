import Verif.Model.Binaural

/-!
Model of `/repo/spaudiopy/parsa.py` 587-631 `render_binaural_loudspeaker_sdm`.  Line numbers refer to that file.
-/

namespace Verif.Parsa

open Verif.Utils Verif.Sig Verif.Decoder

/-- Row lists as an array with as many columns as the first row has (`parsa.py` 619-630; `np.asarray` of equally long rows). -/
def rowsMatrix (rows : List (List ℝ)) : Matrix (Fin rows.length) (Fin (rows.headD []).length) ℝ :=
  fun l s => (rows.getD l []).getD s 0

/-- `parsa.py` 587-631.  `gains` has shape `(S, R)`; `post` is the post equalisation as a function of the loudspeaker signals (`None`, or either
`sdm_post_equalization` or a user function with the remaining arguments fixed), `hr` the result of `io.load_hrirs(fs)` in `decoder.py` 269.
Simplification: `ls_gains` is a rank two array; the post equalisation returns rows of equal length; the warning of line 628 is left out. -/
noncomputable def renderBinauralLoudspeakerSdm {L S R : ℕ} (h : Hull L) (p : List ℝ) (gains : Matrix (Fin S) (Fin R) ℝ) (fs : ℝ)
    (post : Option (List (List ℝ) → Py (List (List ℝ)))) (hr : Py HRIRs) : Py (List ℝ × List ℝ) :=
  if p.length ≠ S then .error .assertionError
  else
    (loudspeakerSignals h gains (some p)).bind fun rows =>
      (match post with
        | none => (Except.ok rows : Py (List (List ℝ)))
        | some f => f rows).bind fun rows =>
        hr.bind fun hr => binauralize h (rowsMatrix rows) fs (0, 0) hr

end Verif.Parsa
