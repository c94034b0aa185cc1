import Verif.Model.Signals
import Verif.Model.SphRot

/-!
Model of the access methods of `/repo/spaudiopy/sig.py` 34-287 and of `AmbiBSignal.sh_to_b` (232-240).
-/

namespace Verif.Sig
open Verif.Utils

/-- `sig.py` 53-55 `MonoSignal.__getitem__` with an integer. -/
def Mono.getItem (m : Mono) (key : ℤ) : Py ℝ := pyGet m.signal key

/-- `sig.py` 53-55 `MonoSignal.__getitem__` with a slice `[a:b]`. -/
def Mono.getSlice (m : Mono) (a b : ℤ) : List ℝ := pySlice m.signal a b

/-- `sig.py` 49-51 `MonoSignal.__len__`. -/
def Mono.len (m : Mono) : ℕ := m.signal.length

/-- `sig.py` 61-63: assigning to the property `signal`; a rejected value leaves the object as it was. -/
def Mono.setSignal (m : Mono) (value : NDArray ℝ) : Mono × Option PyErr :=
  match asarray1d value with
  | .ok r => ({ m with signal := r.data }, none)
  | .error e => (m, some e)

/-- `sig.py` 127-145 `MultiSignal.__init__` including the check of the container: `none` is anything but a list or a tuple. -/
def Multi.construct (signals : Option (List (NDArray ℝ))) (fs : Option ℝ) : Py Multi :=
  match signals with
  | none => .error .assertionError
  | some l => Multi.init l fs

/-- `sig.py` 147-149 `num_channels`. -/
def Multi.numChannels (m : Multi) : ℕ := m.channels.length

/-- `sig.py` 159-161 `MultiSignal.__getitem__` with an integer. -/
def Multi.getItem (m : Multi) (key : ℤ) : Py Mono := pyGet m.channels key

/-- `sig.py` 57-59: the property `signal` inherited by `MultiSignal`, whose constructor (127-145) never sets `_signal`. -/
def Multi.signal (_ : Multi) : Py (List ℝ) := .error .attributeError

/-- `sig.py` 281-283 `HRIRs.__getitem__` with an integer. -/
def HRIRs.getItemInt (h : HRIRs) (key : ℤ) : Py (List ℝ × List ℝ) :=
  (pyGet h.left.rows key).bind fun l => (pyGet h.right.rows key).map fun r => (l, r)

/-- `sig.py` 277-279 `HRIRs.__len__`. -/
def HRIRs.len (h : HRIRs) : ℕ := h.left.cols

/-- `sph.py` 528 on the stacked rows of `sig.py` 239: `np.apply_along_axis` rejects arrays without columns (`ValueError`), `np.dot` every column that has not four
entries (`ValueError`). -/
noncomputable def shToBRows (rows : List (List ℝ)) : Py (List (List ℝ)) :=
  match rows with
  | [] => .error .valueError
  | r :: _ =>
    if r.length = 0 then .error .valueError
    else (Sph.shToB ⟨rows.length, r.length, fun i s => (rows.getD i []).getD s 0⟩ none).map fun B => List.ofFn fun i => List.ofFn (B.val i)

/-- `sig.py` 232-240 `AmbiBSignal.sh_to_b`; `none` is an object that is no `MultiSignal`. -/
noncomputable def AmbiB.shToB (multisig : Option Multi) : Py AmbiB :=
  match multisig with
  | none => .error .assertionError
  | some m => m.getSignals.bind fun rows => (shToBRows rows).bind fun B => AmbiB.init (B.map fun r => ⟨[r.length], r⟩) (some m.fs)

end Verif.Sig
