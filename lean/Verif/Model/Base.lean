import Mathlib.Data.Real.Basic
import Mathlib.Algebra.Order.Archimedean.Real.Basic
import Mathlib.Algebra.Order.Floor.Ring
import Mathlib.Data.List.Basic

/-!
Python/numpy primitives used by the model.

Everything in this file models the *language and library semantics* the code of `/repo/spaudiopy` relies on
(no single file); the places that use a primitive cite their own lines.
-/

namespace Verif

/-- Exception classes raised (explicitly or by Python/numpy itself) in `/repo/spaudiopy/*.py`.
Simplification: messages are dropped. -/
inductive PyErr
  | assertionError | valueError | indexError | keyError | typeError
  | notImplementedError | runtimeError | attributeError | unboundLocalError | linAlgError
  | zeroDivisionError | osError
  deriving DecidableEq, Repr

/-- Result of a Python call: a value or a raised exception (used for all of `/repo/spaudiopy/*.py`). -/
abbrev Py (α : Type _) := Except PyErr α

/-- Python `int(x)` of a float: truncation towards zero
(used e.g. in `/repo/spaudiopy/sig.py` 97, `/repo/spaudiopy/sph.py` 211). -/
noncomputable def pyInt (x : ℝ) : ℤ := if 0 ≤ x then ⌊x⌋ else ⌈x⌉

/-- Python/numpy `x % y` for floats: floored modulus (used in `/repo/spaudiopy/utils.py` 35, 40, 51). -/
noncomputable def pyMod (x y : ℝ) : ℝ := x - y * (⌊x / y⌋ : ℤ)

/-- Clamping of one slice bound: negative indices count from the end, everything is clamped to `[0, len]`
(Python slicing, used e.g. in `/repo/spaudiopy/sig.py` 97, 188, 381-383). -/
def sliceBound (len : ℕ) (i : ℤ) : ℕ :=
  (if i < 0 then max 0 ((len : ℤ) + i) else min i (len : ℤ)).toNat

/-- Python slice `l[a:b]` (used e.g. in `/repo/spaudiopy/sig.py` 97, 188, 381-383). -/
def pySlice {α : Type _} (l : List α) (a b : ℤ) : List α :=
  (l.take (sliceBound l.length b)).drop (sliceBound l.length a)

/-- Index of the first maximal element, with the running best `(index, value)`;
helper of `npArgmax`. -/
noncomputable def argmaxAux : List ℝ → ℕ → ℕ → ℝ → ℕ
  | [], _, best, _ => best
  | x :: xs, i, best, bv => if bv < x then argmaxAux xs (i + 1) i x else argmaxAux xs (i + 1) best bv

/-- `np.argmax` of a one-dimensional array: first index of the maximum, `ValueError` on an empty array
(used in `/repo/spaudiopy/sig.py` 351, `/repo/spaudiopy/decoder.py` 1284). -/
noncomputable def npArgmax : List ℝ → Py ℕ
  | [] => .error .valueError
  | x :: xs => .ok (argmaxAux xs 1 0 x)

/-- A numpy array as shape and row-major data
(used where the code depends on the rank, e.g. `/repo/spaudiopy/utils.py` 17-30). -/
structure NDArray (α : Type _) where
  shape : List ℕ
  data : List α
  deriving DecidableEq, Repr

/-- Shape and data of an `NDArray` agree (always true of a numpy array). -/
def NDArray.WF {α : Type _} (a : NDArray α) : Prop := a.data.length = a.shape.prod

/-- `np.squeeze`: drop all singleton dimensions (used in `/repo/spaudiopy/utils.py` 25). -/
def NDArray.squeeze {α : Type _} (a : NDArray α) : NDArray α :=
  { shape := a.shape.filter (fun d => d ≠ 1), data := a.data }

end Verif
