import Mathlib.Algebra.Polynomial.Roots
import Mathlib.Analysis.Complex.Polynomial.Basic
import Verif.Model.Decoder
import Verif.Model.Signals

/-!
Model of the data drawn by the last figures of `/repo/spaudiopy/plot.py`: `zeropole` (152-177), `compare_ambi` (180-199), `spherical_function` (202-254),
`hull_normals` (782-833) and `set_aspect_equal3d` (1186-1216).

As in `Model/PlotMaps.lean` only the data handed to the drawing routines are modelled.
-/

namespace Verif.Plot
open Real Verif.Utils Verif.Decoder Polynomial

/-- `plot.py` 1186-1216 `set_aspect_equal3d`: the limits all three axes get, from the current ones (1204-1208) or as given. -/
noncomputable def aspectEqual (lims : Fin 3 → ℝ × ℝ) (given : Option (ℝ × ℝ)) : ℝ × ℝ :=
  match given with
  | some l => l
  | none => (min (min (lims 0).1 (lims 1).1) (lims 2).1, max (max (lims 0).2 (lims 1).2) (lims 2).2)

/-- The polynomial with coefficients from the highest power down, as `np.roots` takes it (`plot.py` 154-155). -/
noncomputable def polyOf (c : List ℝ) : ℂ[X] := c.foldl (fun (q : ℂ[X]) (a : ℝ) => q * X + C (a : ℂ)) 0

/-- `np.roots` (`plot.py` 154-155): all roots with multiplicity, in no particular order; none of the zero polynomial. -/
noncomputable def npRoots (c : List ℝ) : Multiset ℂ := (polyOf c).roots

/-- What `zeropole` draws: zeros, poles, and for the z plane the unit circle with the limits of both axes (`plot.py` 158-165). -/
structure ZeroPole where
  zeros : Multiset ℂ
  poles : Multiset ℂ
  circle : Bool
  xlim : ℝ × ℝ
  ylim : ℝ × ℝ

/-- `plot.py` 152-177 `zeropole`; `auto` are the limits matplotlib has chosen for the axes (in the s plane after the axis lines 169-170). -/
noncomputable def zeropole (b a : List ℝ) (zPlane : Bool) (auto : (ℝ × ℝ) × (ℝ × ℝ)) : ZeroPole where
  zeros := npRoots b
  poles := npRoots a
  circle := zPlane
  xlim := if zPlane then (min (-1.1) auto.1.1, max 1.1 auto.1.2) else auto.1
  ylim := if zPlane then (min (-1.1) auto.2.1, max 1.1 auto.2.2) else auto.2

/-- `plot.py` 180-199 `compare_ambi` of two `MultiSignal`s.  The time axis (182) needs a channel and a rate; line 186 asks for an attribute `channel`, which
`MultiSignal` does not have (its list is called `channels`). -/
noncomputable def compareAmbi (_a b : Sig.Multi) : Py Unit := do
  let _ ← b.len
  if b.fs = 0 then .error .zeroDivisionError else .error .attributeError

/-- What `spherical_function` draws: the points (`plot.py` 207, 220, 235), the triangles between them, the values shown as colour with their range
(235-237) and the limits of the axes (239-241, 252). -/
structure SphFun where
  points : List (ℝ × ℝ × ℝ)
  triangles : List (ℕ × ℕ × ℕ)
  colors : List ℝ
  crange : ℝ × ℝ
  lim : ℝ × ℝ

/-- `plot.py` 202-254 `spherical_function` of real values; `qhull` is `ConvexHull(...).simplices` (210).  Simplification: arrays of length one, which numpy
would repeat, count as a mismatch. -/
noncomputable def sphericalFunction (qhull : List (ℝ × ℝ × ℝ) → Py (List (ℕ × ℕ × ℕ))) (f azi zen : List ℝ) : Py SphFun := do
  if azi.length = f.length ∧ zen.length = f.length then
    let pts := (f.zip (azi.zip zen)).map fun t => sph2cart t.2.1 t.2.2 |t.1|
    let tri ← qhull pts
    if f = [] then .error .valueError
    else .ok { points := pts, triangles := tri, colors := f, crange := (f.foldl min 0, f.foldl max 1), lim := aspectEqual (fun _ => (-1, 1)) none }
  else .error .valueError

/-- What `hull_normals` draws (`plot.py` 790-832): the faces, the numbers of the loudspeakers at their positions, an arrow (start and vector) per loudspeaker and per face, the
listener and the barycenter, and the limits of the axes. -/
structure NormalsPlot (L : ℕ) where
  faces : List (Face L)
  labels : List (Vec3 × ℕ)
  vertexArrows : List (Vec3 × Vec3)
  faceArrows : List (Vec3 × Vec3)
  listener : Vec3
  barycenter : Vec3
  lim : ℝ × ℝ

/-- `plot.py` 782-833 `hull_normals`; `vertices` are those of the convex hull (`decoder.py` 87), from which the setup has its vertex normals (`decoder.py` 92);
`auto` are the limits before 832. -/
noncomputable def hullNormals {L : ℕ} (h : Hull L) (vertices : List (Fin L)) (auto : Fin 3 → ℝ × ℝ) (face : Bool := true) (vertex : Bool := true) :
    NormalsPlot L where
  faces := h.simplices
  labels := (List.finRange L).map fun l => (h.points l, l.val)
  vertexArrows := if vertex then (List.finRange L).map fun l => (h.points l, calculateVertexNormals h.simplices h.faceAreas h.faceNormals vertices false l) else []
  faceArrows := if face then h.centroids.zip h.faceNormals else []
  listener := h.listener
  barycenter := h.barycenter
  lim := aspectEqual auto (some (-1, 1))

end Verif.Plot
