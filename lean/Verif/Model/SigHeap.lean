import Verif.Model.Signals

/-!
The object graph behind `/repo/spaudiopy/sig.py`: numpy arrays are views into buffers, slicing shares the buffer,
`copy.deepcopy` copies it.  Used for `copy` (82-84, 285-287) and `trim_audio` (376-384).
-/

namespace Verif.SigHeap

open Verif.Sig

/-- A numpy array object: a contiguous window `[lo, hi)` of a buffer (`sig.py` 46, 63: `np.squeeze` always makes a new array object,
so that no two attributes hold the same one; slicing 97, 188, 381 shares the buffer). -/
structure View where
  buf : ℕ
  lo : ℕ
  hi : ℕ

/-- A signal object (`sig.py` 34-275): its arrays, the first `nch` of them the channels, the others plain attributes (`W`, `X`, ...), and the rate.
Simplification: the channel objects of a `MultiSignal` are not objects of their own, the rates of the channels are that of the object. -/
structure Obj where
  views : List View
  nch : ℕ
  fs : ℝ

/-- Buffers, the first unused buffer, and the objects by handle (all objects of `sig.py` 34-275 alive in a program). -/
structure Store where
  bufs : ℕ → List ℝ
  next : ℕ
  objs : ℕ → Obj

/-- The contents of an array (`sig.py` 58-59). -/
def content (s : Store) (v : View) : List ℝ := ((s.bufs v.buf).take v.hi).drop v.lo

/-- The contents of all arrays of an object (`sig.py` 58-59, 176-178). -/
def read (s : Store) (k : ℕ) : List (List ℝ) := (s.objs k).views.map (content s)

/-- The arrays of freshly allocated buffers (results of `convolve`, `resample`, `deepcopy`; `sig.py` 106, 114, 198, 206, 378). -/
def freshViews (n : ℕ) (cs : List (List ℝ)) : List View := cs.mapIdx fun i c => { buf := n + i, lo := 0, hi := c.length }

/-- Allocation of buffers with the given contents (`sig.py` 106, 114, 198, 206, 378). -/
def alloc (s : Store) (cs : List (List ℝ)) : Store :=
  { s with bufs := fun b => if s.next ≤ b ∧ b < s.next + cs.length then cs.getD (b - s.next) [] else s.bufs b, next := s.next + cs.length }

/-- Rebinding an object (`sig.py` 63, 188). -/
def setObj (s : Store) (k : ℕ) (o : Obj) : Store := { s with objs := fun j => if j = k then o else s.objs j }

/-- `x[a:b]` shares the buffer and is empty when the bounds are reversed (`sig.py` 97, 188, 381-383). -/
def View.slice (v : View) (a b : ℤ) : View :=
  { v with
    lo := v.lo + sliceBound (v.hi - v.lo) a
    hi := v.lo + max (sliceBound (v.hi - v.lo) a) (sliceBound (v.hi - v.lo) b) }

/-- Slicing the channels of an object (`sig.py` 97, 187-188, 380-383). -/
noncomputable def cutObj (o : Obj) (start stop : ℝ) : Obj :=
  { o with views := o.views.mapIdx fun i v => if i < o.nch then v.slice (pyInt (start * o.fs)) (pyInt (stop * o.fs)) else v }

/-- What can be done to an object: `trim` (`sig.py` 90-97, 180-188), a method that binds freshly computed arrays to the channels and leaves the attributes
(`conv`, `apply`, 99-107, 190-199; the function must not return an array it keeps), one that re-initialises the object with fresh arrays (`resample`,
`update_hrirs`; 109-115, 201-208, 289-305; attributes are views of the channels, 222-225), and an assignment `x[i] = v` to one of its arrays in place. -/
inductive Act
  | trim (start stop : ℝ)
  | rebind (f : List (List ℝ) → List (List ℝ))
  | reinit (f : List (List ℝ) → List (List ℝ)) (fs : ℝ) (attrs : ℕ)
  | write (j i : ℕ) (v : ℝ)

/-- One action on the object with handle `k` (`sig.py` 90-115, 180-208, 289-305). -/
noncomputable def act (s : Store) (k : ℕ) : Act → Store
  | .trim start stop => setObj s k (cutObj (s.objs k) start stop)
  | .rebind f =>
    let cs := f (read s k)
    setObj (alloc s cs) k { s.objs k with views := freshViews s.next cs ++ (s.objs k).views.drop (s.objs k).nch, nch := cs.length }
  | .reinit f fs attrs =>
    let cs := f (read s k)
    setObj (alloc s cs) k { views := freshViews s.next cs ++ (freshViews s.next cs).take attrs, nch := cs.length, fs := fs }
  | .write j i v =>
    match (s.objs k).views[j]? with
    | none => s
    | some w =>
      if i < w.hi - w.lo then { s with bufs := fun b => if b = w.buf then (s.bufs b).set (w.lo + i) v else s.bufs b } else s

/-- `copy.deepcopy` (`sig.py` 84, 287, 378) of object `k` into the unused handle `n`: every array gets a buffer of its own. -/
def deepcopy (s : Store) (k n : ℕ) : Store :=
  setObj (alloc s (read s k)) n { s.objs k with views := freshViews s.next (read s k) }

/-- `sig.py` 376-384 `trim_audio`: the copy has handle `n`.  `len(B)` reads channel 0 (`IndexError` when there is none).
An exception leaves an unreachable copy behind. -/
noncomputable def trimAudio (s : Store) (k n : ℕ) (start stop : ℝ) : Store × Option PyErr :=
  let s' := deepcopy s k n
  match (read s' n)[0]? with
  | none => (s', some .indexError)
  | some x =>
    if start < x.length / (s'.objs n).fs then (setObj s' n (cutObj (s'.objs n) start stop), none)
    else (s', some .assertionError)

end Verif.SigHeap
