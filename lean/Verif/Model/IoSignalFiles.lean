import Verif.Model.IoAudio

/-!
Model of the file methods of the signal classes, `/repo/spaudiopy/sig.py` 69-88, 163-174 and 227-230.  Line numbers refer to that file.
-/

namespace Verif.Io

open Verif.Sig

/-- `sf.read` and the comparison of the sampling rates (`sig.py` 72-77, 166-171); `f` is the content of the file or the exception opening it raises. -/
noncomputable def readChecked (f : Py SoundFile) (fs : Option ℝ) : Py (NDArray ℝ × ℝ) :=
  f.bind fun f =>
    match fs with
    | some r => if r ≠ (sfRead f).2 then .error .valueError else .ok ((sfRead f).1, r)
    | none => .ok (sfRead f)

/-- `sig.py` 69-80 `MonoSignal.from_file`. -/
noncomputable def monoFromFile (f : Py SoundFile) (fs : Option ℝ) : Py Mono :=
  (readChecked f fs).bind fun d => if d.1.shape.length ≠ 1 then .error .valueError else Mono.init d.1 d.2

/-- `sig.py` 163-174 `MultiSignal.from_file`. -/
noncomputable def multiFromFile (f : Py SoundFile) (fs : Option ℝ) : Py Multi :=
  (readChecked f fs).bind fun d => if d.1.shape.length = 1 then .error .valueError else Multi.init (splitData d.1) (some d.2)

/-- `sig.py` 227-230 `AmbiBSignal.from_file`: the inherited method calls the constructor of the class it was called on. -/
noncomputable def ambiFromFile (f : Py SoundFile) (fs : Option ℝ) : Py AmbiB :=
  (readChecked f fs).bind fun d => if d.1.shape.length = 1 then .error .valueError else AmbiB.init (splitData d.1) (some d.2)

/-- `sig.py` 86-88 `save`, inherited by all signal classes: `save_audio` without `fs`. -/
noncomputable def saveSignal (s : Saveable) : Py Saved := saveAudio s none

end Verif.Io
