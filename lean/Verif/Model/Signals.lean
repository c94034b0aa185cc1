import Mathlib.Algebra.BigOperators.Group.Finset.Basic
import Mathlib.Data.Finset.Range
import Verif.Model.Base
import Verif.Model.Utils
import Verif.Model.SphCore

/-!
Model of `/repo/spaudiopy/sig.py`: `MonoSignal`, `MultiSignal`, `AmbiBSignal`, `HRIRs`, and of
`/repo/spaudiopy/process.py` 76-96 `resample_signal`, 300-341 `ambeo_a2b`, `b_to_stereo`.

One-dimensional arrays are lists.  A method that can raise after it has already changed the object returns the changed
object together with the exception.  Warnings, files and sound output are not modelled.
-/

namespace Verif.Sig

open Verif.Utils

/-- Sample `n` of the full linear convolution of two finite signals
(`scipy.signal.convolve`, used in `sig.py` 106, 198, 371-372, `decoder.py` 288-289). -/
noncomputable def convAt (x h : List ℝ) (n : ℕ) : ℝ :=
  ∑ k ∈ Finset.range (n + 1), x.getD k 0 * h.getD (n - k) 0

/-- `mode='full'` of `scipy.signal.convolve` (`sig.py` 106, 198) for non-empty signals. -/
noncomputable def convFull (x h : List ℝ) : List ℝ :=
  (List.range (x.length + h.length - 1)).map (convAt x h)

/-- The `mode` argument of `scipy.signal.convolve` (`sig.py` 106, 198, 371). -/
inductive ConvMode
  | full | same | valid
  deriving DecidableEq, Repr

/-- The part of the full convolution each mode keeps: all of it, the centred part as long as the first operand, or the samples where
the operands overlap completely (`sig.py` 106, 198, 371). -/
noncomputable def convKeep (mode : ConvMode) (x h : List ℝ) : List ℝ :=
  match mode with
  | .full => convFull x h
  | .same => ((convFull x h).drop ((h.length - 1) / 2)).take x.length
  | .valid => ((convFull x h).drop (min x.length h.length - 1)).take (max x.length h.length - min x.length h.length + 1)

/-- `scipy.signal.convolve` of two one-dimensional arrays (`sig.py` 106, 198).
An empty operand is rejected by the underlying `np.convolve` (`ValueError`). -/
noncomputable def convolve (mode : ConvMode) (x h : List ℝ) : Py (List ℝ) :=
  if x = [] ∨ h = [] then .error .valueError else .ok (convKeep mode x h)

/-- `resampy.resample` along the time axis (`process.py` 95): an external routine; what is used of it is that it treats rows
independently and that the output length only depends on the rates and the input length. -/
structure Resampler where
  len : ℝ → ℝ → ℕ → ℕ
  run : ℝ → ℝ → List ℝ → List ℝ
  run_length : ∀ a b x, (run a b x).length = len a b x.length

/-! ### `MonoSignal` -/

/-- `sig.py` 34-121 `MonoSignal`: samples and sampling rate. -/
structure Mono where
  signal : List ℝ
  fs : ℝ

/-- `sig.py` 37-47 `MonoSignal.__init__`. -/
def Mono.init (a : NDArray ℝ) (fs : ℝ) : Py Mono :=
  (asarray1d a).map fun r => { signal := r.data, fs := fs }

/-- The effective stop time, `sig.py` 93-94 and 183-184. -/
noncomputable def trimStop (start : ℝ) (stop dur : Option ℝ) : Option ℝ :=
  match dur with
  | some d => some (start + d)
  | none => stop

/-- `sig.py` 97, 188, 381-383: `signal[int(start * fs): int(stop * fs)]`. -/
noncomputable def cut (start stop fs : ℝ) (x : List ℝ) : List ℝ :=
  pySlice x (pyInt (start * fs)) (pyInt (stop * fs))

/-- `sig.py` 90-97 `MonoSignal.trim`; `None > float` is a `TypeError`.  Simplification: `fs` is not zero. -/
noncomputable def Mono.trim (m : Mono) (start : ℝ) (stop dur : Option ℝ) : Py Mono :=
  if start < m.signal.length / m.fs then
    match trimStop start stop dur with
    | some s => .ok { m with signal := cut start s m.fs m.signal }
    | none => .error .typeError
  else .error .assertionError

/-- `sig.py` 99-101 `MonoSignal.apply`; the argument is what `func(*args, **kwargs)` returned. -/
def Mono.apply (m : Mono) (r : NDArray ℝ) : Py Mono :=
  (asarray1d r).map fun r => { m with signal := r.data }

/-- `sig.py` 103-107 `MonoSignal.conv` (and the loop body 197-198 of `MultiSignal.conv`). -/
noncomputable def Mono.conv (m : Mono) (mode : ConvMode) (h : NDArray ℝ) : Py Mono :=
  (asarray1d h).bind fun h => (convolve mode m.signal h.data).map fun s => { m with signal := s }

/-- `sig.py` 109-115 `MonoSignal.resample` with `process.py` 76-96: resampling to a length below one is rejected by resampy. -/
noncomputable def Mono.resample (rs : Resampler) (m : Mono) (fsNew : ℝ) : Py Mono :=
  if fsNew = m.fs then .ok m
  else if rs.len m.fs fsNew m.signal.length < 1 then .error .valueError
  else .ok { signal := rs.run m.fs fsNew m.signal, fs := fsNew }

/-! ### `MultiSignal` -/

/-- `sig.py` 124-214 `MultiSignal`: its channels, `_fs` and the attribute `channel_count`. -/
structure Multi where
  channels : List Mono
  fs : ℝ
  channelCount : ℕ

/-- `sig.py` 127-145 `MultiSignal.__init__`; the arrays of the list are converted one after the other.
Simplification: `signals` is a list or tuple. -/
def Multi.init (signals : List (NDArray ℝ)) (fs : Option ℝ) : Py Multi :=
  match fs with
  | none => .error .valueError
  | some fs => (signals.mapM fun s => Mono.init s fs).map fun cs => { channels := cs, fs := fs, channelCount := cs.length }

/-- The assignment loop over the channels (`sig.py` 187-188, 192-193, 196-198): channel after channel is replaced, the first exception
leaves the rest as it was. -/
def loopChannels (f : ℕ → Mono → Py Mono) : ℕ → List Mono → List Mono × Option PyErr
  | _, [] => ([], none)
  | i, c :: cs =>
    match f i c with
    | .error e => (c :: cs, some e)
    | .ok c' => (c' :: (loopChannels f (i + 1) cs).1, (loopChannels f (i + 1) cs).2)

/-- The object after the loop (`sig.py` 187-188, 192-193, 196-198). -/
def Multi.loop (m : Multi) (f : ℕ → Mono → Py Mono) : Multi × Option PyErr :=
  ({ m with channels := (loopChannels f 0 m.channels).1 }, (loopChannels f 0 m.channels).2)

/-- `sig.py` 155-157 `MultiSignal.__len__`: the length of the first channel. -/
def Multi.len (m : Multi) : Py ℕ :=
  match m.channels with
  | [] => .error .indexError
  | c :: _ => .ok c.signal.length

/-- `sig.py` 180-188 `MultiSignal.trim`. -/
noncomputable def Multi.trim (m : Multi) (start : ℝ) (stop dur : Option ℝ) : Multi × Option PyErr :=
  match m.len with
  | .error e => (m, some e)
  | .ok n =>
    if start < n / m.fs then
      match trimStop start stop dur with
      | some s => m.loop fun _ c => .ok { c with signal := cut start s c.fs c.signal }
      | none => (m, some .typeError)
    else (m, some .assertionError)

/-- `sig.py` 190-193 `MultiSignal.apply`; `r i` is what the `i`-th call of `func(*args, **kwargs)` returned. -/
def Multi.apply (m : Multi) (r : ℕ → NDArray ℝ) : Multi × Option PyErr :=
  m.loop fun i c => c.apply (r i)

/-- `sig.py` 195-199 `MultiSignal.conv`: `zip` stops at the shorter list. -/
noncomputable def Multi.conv (m : Multi) (mode : ConvMode) (irs : List (NDArray ℝ)) : Multi × Option PyErr :=
  m.loop fun i c =>
    match irs[i]? with
    | some h => c.conv mode h
    | none => .ok c

/-- `sig.py` 176-178 `get_signals` (`np.asarray` of a ragged list is a `ValueError`): the rows. -/
def Multi.getSignals (m : Multi) : Py (List (List ℝ)) :=
  if ∀ c ∈ m.channels, ∀ c' ∈ m.channels, c.signal.length = c'.signal.length then .ok (m.channels.map Mono.signal)
  else .error .valueError

/-- Iterating a squeezed single row (`sig.py` 208, `process.py` 96): its *samples*; a single sample is a 0-d array (`TypeError`). -/
def unstackRow : List ℝ → Py (List (List ℝ))
  | [_] => .error .typeError
  | row => .ok (row.map fun v => [v])

/-- The list `[*resample_signal(...)]` (`sig.py` 206-208, `process.py` 94-96): the squeezed array is iterated along its first axis.
A single row loses its axis. -/
def unstackSqueezed : List (List ℝ) → Py (List (List ℝ))
  | [row] => unstackRow row
  | rows => .ok rows

/-- `process.py` 76-96 `resample_signal` of the stacked channels, before the squeeze. -/
noncomputable def resampleRows (rs : Resampler) (rows : List (List ℝ)) (fs fsNew : ℝ) : Py (List (List ℝ)) :=
  match rows with
  | [] => .error .valueError
  | r :: _ => if rs.len fs fsNew r.length < 1 then .error .valueError else .ok (rows.map (rs.run fs fsNew))

/-- The list of channel signals `MultiSignal.resample` hands to `__init__` (`sig.py` 206-208). -/
noncomputable def Multi.resampled (rs : Resampler) (m : Multi) (fsNew : ℝ) : Py (List (List ℝ)) :=
  m.getSignals.bind fun rows => (resampleRows rs rows m.fs fsNew).bind unstackSqueezed

/-- `sig.py` 201-208 `MultiSignal.resample`. -/
noncomputable def Multi.resample (rs : Resampler) (m : Multi) (fsNew : ℝ) : Multi × Option PyErr :=
  if fsNew = m.fs then (m, none)
  else
    match m.resampled rs fsNew with
    | .error e => (m, some e)
    | .ok rows => ({ channels := rows.map fun r => ⟨r, fsNew⟩, fs := fsNew, channelCount := rows.length }, none)

/-- `sig.py` 376-384 `trim_audio` on values (`SigHeap.lean` has the object graph): loops over `range(B.channel_count)` with `B.fs`. -/
noncomputable def trimAudio (a : Multi) (start stop : ℝ) : Py Multi :=
  match a.len with
  | .error e => .error e
  | .ok n =>
    if start < n / a.fs then
      if a.channels.length < a.channelCount then .error .indexError
      else .ok { a with
        channels := a.channels.mapIdx fun i c =>
          if i < a.channelCount then { c with signal := cut start stop a.fs c.signal } else c }
    else .error .assertionError

/-! ### `AmbiBSignal` -/

/-- `sig.py` 217-240 `AmbiBSignal`: a `MultiSignal` with the attributes set in lines 222-225. -/
structure AmbiB extends Multi where
  W : List ℝ
  X : List ℝ
  Y : List ℝ
  Z : List ℝ

/-- `sig.py` 221-225: the four attributes are taken from the channels. -/
def AmbiB.ofMulti (m : Multi) : Py AmbiB :=
  if m.channelCount = 4 then
    .ok { m with
      W := (m.channels.map Mono.signal).getD 0 []
      X := (m.channels.map Mono.signal).getD 1 []
      Y := (m.channels.map Mono.signal).getD 2 []
      Z := (m.channels.map Mono.signal).getD 3 [] }
  else .error .assertionError

/-- `sig.py` 219-225 `AmbiBSignal.__init__`. -/
def AmbiB.init (signals : List (NDArray ℝ)) (fs : Option ℝ) : Py AmbiB :=
  (Multi.init signals fs).bind AmbiB.ofMulti

/-- An inherited method (`sig.py` 180-199) called on an `AmbiBSignal`: it only touches the channels. -/
def AmbiB.lift (b : AmbiB) (r : Multi × Option PyErr) : AmbiB × Option PyErr := ({ b with toMulti := r.1 }, r.2)

/-- `self.__init__` of an existing `AmbiBSignal` (`sig.py` 208, 219-225): the base class part is replaced first, then the attributes are
refreshed unless the channel count is wrong. -/
def AmbiB.reinit (b : AmbiB) (m : Multi) : AmbiB × Option PyErr :=
  match AmbiB.ofMulti m with
  | .error e => ({ b with toMulti := m }, some e)
  | .ok b' => (b', none)

/-- Inherited `resample` (`sig.py` 201-208): `self.__init__` is that of `AmbiBSignal`. -/
noncomputable def AmbiB.resample (rs : Resampler) (b : AmbiB) (fsNew : ℝ) : AmbiB × Option PyErr :=
  if fsNew = b.fs then (b, none)
  else
    match b.toMulti.resampled rs fsNew with
    | .error e => (b, some e)
    | .ok rows => b.reinit { channels := rows.map fun r => ⟨r, fsNew⟩, fs := fsNew, channelCount := rows.length }

/-- `process.py` 327-341 `b_to_stereo`: reads the attributes.  Simplification: the three arrays have equal length. -/
noncomputable def bToStereo (b : AmbiB) : List ℝ × List ℝ :=
  (List.zipWith (· + ·) b.W (List.zipWith (fun x y => (x + y) / √2) b.X b.Y),
   List.zipWith (· + ·) b.W (List.zipWith (fun x y => (x - y) / √2) b.X b.Y))

/-- `process.py` 300-324 `ambeo_a2b`, the assignments 320-323: with filter coefficients the attributes are replaced by filtered ones.
`lfilter` is external (a parameter for each of the two filters); the first part (318-319) is `AmbiB.init` of the B-format rows. -/
def ambeoFilter (b : AmbiB) (filters : Option ((List ℝ → List ℝ) × (List ℝ → List ℝ))) : AmbiB :=
  match filters with
  | none => b
  | some (f0, f1) => { b with W := f0 b.W, X := f1 b.X, Y := f1 b.Y, Z := f1 b.Z }

/-! ### `HRIRs` -/

/-- A two-dimensional array: number of columns and rows (used for `left`, `right` in `sig.py` 269-270). -/
structure Arr2 where
  cols : ℕ
  rows : List (List ℝ)

/-- All rows have as many entries as there are columns (always true of a numpy array, `sig.py` 259-260). -/
def Arr2.WF (a : Arr2) : Prop := ∀ r ∈ a.rows, r.length = a.cols

/-- A rank two `NDArray` as rows (`sig.py` 259-263). -/
def Arr2.ofND (r c : ℕ) (data : List ℝ) : Arr2 :=
  { cols := c, rows := (List.range r).map fun i => (data.drop (i * c)).take c }

/-- `sig.py` 243-275 `HRIRs`. -/
structure HRIRs where
  left : Arr2
  right : Arr2
  azi : List ℝ
  zen : List ℝ
  fs : ℝ
  numGrid : ℕ
  numSamples : ℕ

/-- `sig.py` 264-275: the direction checks and the assignments. -/
def HRIRs.finish (left right : Arr2) (azi zen : NDArray ℝ) (fs : ℝ) : Py HRIRs :=
  (asarray1d azi).bind fun azi => (asarray1d zen).bind fun zen =>
    if azi.data.length ≠ zen.data.length then .error .assertionError
    else if azi.data.length ≠ left.rows.length then .error .assertionError
    else .ok { left := left, right := right, azi := azi.data, zen := zen.data, fs := fs, numGrid := azi.data.length, numSamples := left.cols }

/-- `sig.py` 246-275 `HRIRs.__init__`; `len` of a 0-d array is a `TypeError`. -/
def HRIRs.init (left right azi zen : NDArray ℝ) (fs : ℝ) : Py HRIRs :=
  match left.shape, right.shape with
  | [], _ => .error .typeError
  | _ :: _, [] => .error .typeError
  | l :: ls, r :: rs =>
    if l ≠ r then .error .assertionError
    else
      match ls, rs with
      | [cl], [cr] => HRIRs.finish (Arr2.ofND l cl left.data) (Arr2.ofND r cr right.data) azi zen fs
      | _, _ => .error .assertionError

/-- `sig.py` 289-305 `update_hrirs`: re-initialise with the old directions; a rejected update leaves the object as it was (all
checks precede the assignments). -/
def HRIRs.update (h : HRIRs) (left right : NDArray ℝ) : HRIRs × Option PyErr :=
  match HRIRs.init left right ⟨[h.azi.length], h.azi⟩ ⟨[h.zen.length], h.zen⟩ h.fs with
  | .ok h' => (h', none)
  | .error e => (h, some e)

/-- Dot product of two triples (`sig.py` 351 `vec@vec_g.T`). -/
def dot3 (a b : ℝ × ℝ × ℝ) : ℝ := a.1 * b.1 + a.2.1 * b.2.1 + a.2.2 * b.2.2

/-- One row of `sig.py` 349-351: the index of the grid direction with the largest dot product. -/
noncomputable def HRIRs.nearestOne (h : HRIRs) (a z : ℝ) : Py ℕ :=
  npArgmax (List.zipWith (fun ga gz => dot3 (sph2cart a z) (sph2cart ga gz)) h.azi h.zen)

/-- The broadcasting of `sph2cart(azi, zen)` and the stack of its three results (`sig.py` 349): one azimuth is broadcast to all
zeniths; the converse fails because `z` does not contain the azimuth. -/
def pairDirs (azi zen : List ℝ) : Py (List (ℝ × ℝ)) :=
  if azi.length = zen.length then .ok (azi.zip zen)
  else
    match azi with
    | [a] => .ok (zen.map fun z => (a, z))
    | _ => .error .valueError

/-- `sig.py` 331-351 `nearest_idx`, the final squeeze included. -/
noncomputable def HRIRs.nearestIdx (h : HRIRs) (azi zen : NDArray ℝ) : Py (NDArray ℕ) :=
  (asarray1d azi).bind fun azi => (asarray1d zen).bind fun zen =>
    (pairDirs azi.data zen.data).bind fun ds =>
      (ds.mapM fun d => h.nearestOne d.1 d.2).map fun is => NDArray.squeeze { shape := [is.length], data := is }

/-- `sig.py` 281-283 `__getitem__` for an index `0 ≤ key`. -/
def HRIRs.getItem (h : HRIRs) (key : ℕ) : Py (List ℝ × List ℝ) :=
  match h.left.rows[key]?, h.right.rows[key]? with
  | some l, some r => .ok (l, r)
  | _, _ => .error .indexError

/-- `sig.py` 307-329 `nearest_hrirs` for one direction. -/
noncomputable def HRIRs.nearestHrirs (h : HRIRs) (azi zen : ℝ) : Py (List ℝ × List ℝ) :=
  (h.nearestOne azi zen).bind h.getItem

/-- Number of columns after a row-wise convolution (`sig.py` 371-373). -/
def convLen (mode : ConvMode) (n m : ℕ) : ℕ :=
  match mode with
  | .full => n + m - 1
  | .same => n
  | .valid => max n m - min n m + 1

/-- `scysig.convolve(left, eq_taps[None, :], mode)` (`sig.py` 371-372): row by row; in mode `'valid'` one operand must be at least as
large as the other in every dimension.  Simplification: empty arrays are rejected. -/
noncomputable def convRows (mode : ConvMode) (a : Arr2) (h : List ℝ) : Py Arr2 :=
  if a.rows = [] ∨ a.cols = 0 ∨ h = [] then .error .valueError
  else if mode = .valid ∧ a.cols < h.length ∧ 1 < a.rows.length then .error .valueError
  else .ok { cols := convLen mode a.cols h.length, rows := a.rows.map fun r => convKeep mode r h }

/-- `sig.py` 353-373 `apply_ctf_eq` with the taps given, or computed by `process.hrirs_ctf` before the call (line 370). -/
noncomputable def HRIRs.applyCtfEq (h : HRIRs) (taps : List ℝ) (mode : ConvMode) : HRIRs × Option PyErr :=
  match convRows mode h.left taps with
  | .error e => (h, some e)
  | .ok l =>
    match convRows mode h.right taps with
    | .error e => ({ h with left := l }, some e)
    | .ok r => ({ h with left := l, right := r, numSamples := l.cols }, none)

end Verif.Sig
