import Verif.Model.Decoder

/-!
Memory model of `LoudspeakerSetup.__init__` (`/repo/spaudiopy/decoder.py` 60-72) and `from_sph` (111-129): which arrays of the caller
are written to. Memory is a set of numbered cells; a numpy array is the list of the cells it views, so arrays may share memory.
-/

namespace Verif.Decoder
open Verif.Utils

/-- Memory: contents of the cells, and the first cell that is not yet allocated (`decoder.py` 60-72). -/
structure Mem where
  cell : ℕ → ℝ
  next : ℕ

/-- An `array_like` argument (`decoder.py` 49): a Python sequence of numbers, or an ndarray viewing cells of memory.
Simplification: floating-point, one-dimensional after squeezing, and one view does not contain a cell twice. -/
inductive Arg
  | seq (vals : List ℝ)
  | array (cells : List ℕ)

/-- Values an argument currently has (`decoder.py` 60-72). -/
def Arg.vals (m : Mem) : Arg → List ℝ
  | .seq v => v
  | .array c => c.map m.cell

/-- `np.asarray` inside `utils.asarray_1d` (`utils.py` 17-30, called in `decoder.py` 60-65): a sequence is copied to new cells, an
ndarray is returned as it is (squeezing gives a view). -/
def toCells (m : Mem) : Arg → List ℕ × Mem
  | .seq v => ((List.range v.length).map (m.next + ·),
      { cell := fun a => if m.next ≤ a ∧ a < m.next + v.length then v.getD (a - m.next) 0 else m.cell a, next := m.next + v.length })
  | .array c => (c, m)

/-- `arr -= v` with a scalar (`decoder.py` 68-70). -/
def subScalar (m : Mem) (cells : List ℕ) (v : ℝ) : Mem := { m with cell := fun a => if a ∈ cells then m.cell a - v else m.cell a }

/-- `arr -= arr` (`decoder.py` 72). -/
def subSelf (m : Mem) (cells : List ℕ) : Mem := { m with cell := fun a => if a ∈ cells then m.cell a - m.cell a else m.cell a }

/-- `listener_position[i]` (`decoder.py` 68-70): reads the caller's object, which may have changed meanwhile. -/
def Arg.get (m : Mem) (i : ℕ) (a : Arg) : Py ℝ := match (a.vals m)[i]? with
  | some v => .ok v
  | none => .error .indexError

/-- `decoder.py` 60-72: the cells of `x`, `y`, `z` held by the new object and the memory afterwards. -/
def initArrays (m : Mem) (x y z : Arg) (listener : Option Arg) : Py ((List ℕ × List ℕ × List ℕ) × Mem) := do
  let (cx, m) := toCells m x
  let (cy, m) := toCells m y
  let (cz, m) := toCells m z
  let lp := listener.getD (.seq [0, 0, 0])
  let (cl, m) := toCells m lp
  let v ← lp.get m 0
  let m := subScalar m cx v
  let v ← lp.get m 1
  let m := subScalar m cy v
  let v ← lp.get m 2
  let m := subScalar m cz v
  let m := subSelf m cl
  return ((cx, cy, cz), m)

/-- `decoder.py` 111-129 `from_sph`, up to the constructor: the converted coordinates and listener position are new objects. -/
noncomputable def fromSphArrays (m : Mem) (azi zen r : Arg) (listener : Option Arg) : Py ((List ℕ × List ℕ × List ℕ) × Mem) :=
  let pts := ((azi.vals m).zip ((zen.vals m).zip (r.vals m))).map fun t => sph2cart t.1 t.2.1 t.2.2
  match (listener.getD (.seq [0, 0, 0])).vals m with
  | [a, b, c] =>
    let l := sph2cart a b c
    initArrays m (.seq (pts.map fun p => p.1)) (.seq (pts.map fun p => p.2.1)) (.seq (pts.map fun p => p.2.2))
      (some (.seq [l.1, l.2.1, l.2.2]))
  | _ => .error .typeError

end Verif.Decoder
