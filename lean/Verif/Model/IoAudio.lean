import Verif.Model.Signals

/-!
Model of `/repo/spaudiopy/io.py` 30-111: `load_audio` and `save_audio`.  Line numbers refer to that file.

The external `soundfile` library is modelled as a store of sound files; sample values are stored exactly (the default subtype is
`'FLOAT'`, floats are reals here).
-/

namespace Verif.Io

open Verif.Sig

/-- Content of a sound file as `soundfile` presents it (`io.py` 50, 111): a sampling rate, a number of frames and the channels. -/
structure SoundFile where
  fs : ℝ
  frames : ℕ
  channels : List (List ℝ)

/-- A file that can exist: at least one channel, and every channel has all frames (`io.py` 50, 111). -/
def SoundFile.WF (f : SoundFile) : Prop := f.channels ≠ [] ∧ ∀ c ∈ f.channels, c.length = f.frames

/-- Row-major data of a `frames × channels` array from its columns (`io.py` 50, 111). -/
def interleave (frames : ℕ) (cols : List (List ℝ)) : List ℝ :=
  (List.range frames).flatMap fun i => cols.map fun c => c.getD i 0

/-- Column `j` of a rank two array with `c` columns: iterating `data.T` (`io.py` 53-54), and how `sf.write` sees a channel. -/
def column (r c : ℕ) (data : List ℝ) (j : ℕ) : List ℝ := (List.range r).map fun i => data.getD (i * c + j) 0

/-- `sf.read(file)` (`io.py` 50): one-dimensional for one channel, `frames × channels` otherwise. -/
def sfRead (f : SoundFile) : NDArray ℝ × ℝ :=
  if f.channels.length = 1 then (⟨[f.frames], f.channels.getD 0 []⟩, f.fs)
  else (⟨[f.frames, f.channels.length], interleave f.frames f.channels⟩, f.fs)

/-- `sf.write(file, data, fs)` (`io.py` 111): a 0-d array has no `shape[1]` (`IndexError`). -/
def sfWrite (data : NDArray ℝ) (fs : ℝ) : Py SoundFile :=
  match data.shape with
  | [] => .error .indexError
  | [n] => .ok ⟨fs, n, [data.data]⟩
  | [r, c] => .ok ⟨fs, r, (List.range c).map (column r c data.data)⟩
  | _ => .error .valueError

/-! ### `load_audio` -/

/-- The channels of one file (`io.py` 50-56). -/
def splitData (data : NDArray ℝ) : List (NDArray ℝ) :=
  match data.shape with
  | [r, c] => (List.range c).map fun j => ⟨[r], column r c data.data j⟩
  | _ => [data]

/-- What `load_audio` returns (`io.py` 67-70). -/
inductive Loaded
  | mono (m : Mono)
  | multi (m : Multi)

/-- `np.asarray` of a list with one array (`io.py` 68, `sig.py` 46). -/
def stackOne (a : NDArray ℝ) : NDArray ℝ := ⟨1 :: a.shape, a.data⟩

/-- `io.py` 30-70 `load_audio`; `files` are the contents of the files (or the exception opening one raises), a single file name is a
one-element list. -/
noncomputable def loadAudio (files : List (Py SoundFile)) (fs : Option ℝ) : Py Loaded :=
  (files.mapM fun f : Py SoundFile => f.map sfRead).bind fun loaded =>
    let data := loaded.flatMap fun x => splitData x.1
    match loaded with
    | [] => .error .indexError
    | first :: _ =>
      if ¬ ∀ x ∈ loaded, x.2 = first.2 then .error .assertionError
      else if ∃ r, fs = some r ∧ r ≠ first.2 then .error .valueError
      else
        match data with
        | [d] => (Mono.init (stackOne d) first.2).map .mono
        | ds => (Multi.init ds (some first.2)).map .multi

/-! ### `save_audio` -/

/-- The types `save_audio` distinguishes (`io.py` 91-103).  A subclass of a signal class is `other`. -/
inductive Saveable
  | mono (m : Mono)
  | multi (m : Multi)
  | ambiB (b : AmbiB)
  | array (a : NDArray ℝ)
  | other

/-- `get_signals().T` (`io.py` 95): a list of no channels is an empty one-dimensional array. -/
def transposed (rows : List (List ℝ)) : NDArray ℝ :=
  match rows with
  | [] => ⟨[0], []⟩
  | r :: _ => ⟨[r.length, rows.length], interleave r.length rows⟩

/-- Data and rate that are written (`io.py` 87-103).  The test `isinstance(sig, sig.MonoSignal)` of line 87 asks about the *module*
`sig` and is false, so lines 88-89 are never executed. -/
def saveData (s : Saveable) (fs : Option ℝ) : Py (NDArray ℝ × ℝ) :=
  match s with
  | .mono m => .ok (⟨[m.signal.length], m.signal⟩, m.fs)
  | .multi m => m.getSignals.map fun rows => (transposed rows, m.fs)
  | .ambiB b => b.toMulti.getSignals.map fun rows => (transposed rows, b.fs)
  | .array a => match fs with
    | none => .error .valueError
    | some r => .ok (a, r)
  | .other => .error .notImplementedError

/-- The written file and the two warnings (`io.py` 104-111). -/
structure Saved where
  file : SoundFile
  warnChannels : Bool
  warnClipped : Bool

/-- `io.py` 104-111: `np.max` of no samples is a `ValueError`. -/
noncomputable def writeData (data : NDArray ℝ) (fs : ℝ) : Py Saved :=
  open Classical in
  if 2 < data.shape.length then .error .assertionError
  else if data.data = [] then .error .valueError
  else (sfWrite data fs).map fun f =>
    { file := f
      warnChannels := decide (data.shape.length = 2 ∧ data.shape.getD 0 0 < data.shape.getD 1 0)
      warnClipped := decide (∃ v ∈ data.data, 1 < |v|) }

/-- `io.py` 73-111 `save_audio`; the file name is left out. -/
noncomputable def saveAudio (s : Saveable) (fs : Option ℝ) : Py Saved :=
  (saveData s fs).bind fun d => writeData d.1 d.2

end Verif.Io
