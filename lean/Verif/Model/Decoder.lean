import Verif.Model.Utils
import Verif.Model.SphHarm
import Verif.Model.SphCore
import Verif.Model.Grids
import Mathlib.Analysis.SpecialFunctions.Pow.Real
import Mathlib.Analysis.SpecialFunctions.Trigonometric.Inverse

/-!
Model of `/repo/spaudiopy/decoder.py`: loudspeaker setups, triangulation checks, VBAP and the panning and decoding functions
built on it. Line numbers refer to that file unless stated otherwise.

External routines are parameters: `qhull` (`scipy.spatial.ConvexHull`), `lstsq` (`np.linalg.lstsq(v, eye(3))`), `pinv`, `svd`,
and the content of the n-design data file. Printing, logging, plotting and warnings are not modelled, except that a *wrongly
called* `warn` raises.
-/

namespace Verif.Decoder
open Real Verif.Sph Verif.Utils

/-- Coordinates `(3,)` (`decoder.py` 60-62). -/
abbrev Vec3 := Fin 3 → ℝ
/-- A 3×3 array (`decoder.py` 523-531). -/
abbrev Mat3 := Matrix (Fin 3) (Fin 3) ℝ
/-- A simplex: three vertex indices into the `L` loudspeakers (`decoder.py` 87-88). -/
abbrev Face (L : ℕ) := Fin 3 → Fin L

/-- `np.linalg.norm(v, ord=p)` of a vector, for `p > 0` (`decoder.py` 541, 628, 709). Simplification: the orders 0, negative and
infinite are not modelled. -/
noncomputable def npNorm (p : ℝ) {n : ℕ} (v : Fin n → ℝ) : ℝ := (∑ i, |v i| ^ p) ^ (1 / p)

/-- Attributes of a `LoudspeakerSetup` which are independent of the Ambisonic hull (`decoder.py` 59-109).
`npoints` is `L`; `centroids`, `faceAreas`, `faceNormals` are parallel to `simplices`. -/
structure Hull (L : ℕ) where
  points : Fin L → Vec3
  listener : Vec3
  d : Fin L → ℝ
  a : ℝ
  simplices : List (Face L)
  centroids : List Vec3
  faceAreas : List ℝ
  faceNormals : List Vec3
  barycenter : Vec3
  encloses : List (Face L)
  valid : List (Face L)
  invBase : Option (List Mat3)
  charOrder : Option ℕ

/-- The Ambisonic hull (`decoder.py` 209-234): the `L` loudspeakers followed by `M` imaginary ones, and `imaginary_ls_idx`. -/
structure Ambi (L : ℕ) where
  M : ℕ
  hull : Hull (L + M)
  imaginary : Option (List (Fin (L + M)))

/-- The kernel hull (`decoder.py` 235-246): its points and `N_kernel`. -/
structure Kernel where
  J : ℕ
  points : Fin J → Vec3
  nKernel : ℤ

/-- A `LoudspeakerSetup` (`decoder.py` 35-109); the empty lists `[]` of lines 104-105 are `none`. -/
structure Setup (L : ℕ) extends Hull L where
  ambi : Option (Ambi L)
  kernel : Option Kernel

/-! ### Triangulation helpers -/

/-- Mean of the three vertices (`decoder.py` 327-330, 350-351: `np.mean(v, axis=0)`). -/
noncomputable def centroid {L : ℕ} (points : Fin L → Vec3) (f : Face L) : Vec3 := fun c => (∑ i, points (f i) c) / 3

/-- `decoder.py` 323-330 `calculate_centroids`. -/
noncomputable def calculateCentroids {L : ℕ} (points : Fin L → Vec3) (faces : List (Face L)) : List Vec3 :=
  faces.map (centroid points)

/-- `decoder.py` 333-339 `calculate_face_areas`. -/
noncomputable def calculateFaceAreas {L : ℕ} (points : Fin L → Vec3) (faces : List (Face L)) : List ℝ :=
  faces.map fun f => areaTriangle (points (f 0)) (points (f 1)) (points (f 2))

/-- `decoder.py` 380-382 `calculate_barycenter` (also 345). -/
noncomputable def calculateBarycenter {L : ℕ} (points : Fin L → Vec3) : Vec3 := fun c => (∑ l, points l c) / L

/-- Body of the loop of `calculate_face_normals`, `decoder.py` 346-359. -/
noncomputable def faceNormal {L : ℕ} (points : Fin L → Vec3) (barycenter : Vec3) (eps : ℝ) (normalize : Bool) (f : Face L) : Vec3 :=
  let c := centroid points f
  let vn := crossProduct (points (f 1) - points (f 0)) (points (f 2) - points (f 0))
  let criterion := (c + vn - c) ⬝ᵥ (barycenter - c)
  let vn := if criterion > eps then -vn else vn
  if normalize then (1 / norm3 vn) • vn else vn

/-- `decoder.py` 342-360 `calculate_face_normals`. -/
noncomputable def calculateFaceNormals {L : ℕ} (points : Fin L → Vec3) (faces : List (Face L)) (eps : ℝ := 10e-6)
    (normalize : Bool := false) : List Vec3 :=
  faces.map (faceNormal points (calculateBarycenter points) eps normalize)

/-- `decoder.py` 363-377 `calculate_vertex_normals` (one entry per vertex of the hull, zero elsewhere; `vertices` is given). -/
noncomputable def calculateVertexNormals {L : ℕ} (faces : List (Face L)) (areas : List ℝ) (normals : List Vec3)
    (vertices : List (Fin L)) (normalize : Bool) : Fin L → Vec3 := fun p =>
  if p ∈ vertices then
    let vn : Vec3 := (((faces.zip (areas.zip normals)).filter fun t => decide (∃ i, t.1 i = p)).map fun t => t.2.1 • t.2.2).sum
    if normalize then (1 / norm3 vn) • vn else vn
  else 0

/-- `decoder.py` 385-401 `check_listener_inside`. -/
noncomputable def checkListenerInside {L : ℕ} (simplices : List (Face L)) (centroids : List Vec3) (barycenter listener : Vec3) :
    List (Face L) :=
  ((simplices.zip centroids).filter fun t => decide (¬ (listener - t.2) ⬝ᵥ (barycenter - t.2) < 0)).map Prod.fst

/-- `decoder.py` 131-136 `is_simplex_valid`: some row of `valid_simplices` has three entries in `simplex`. -/
def isSimplexValid {L : ℕ} (valid : List (Face L)) (s : Face L) : Bool :=
  valid.any fun v => (List.finRange 3).countP (fun i => decide (∃ j, s j = v i)) == 3

/-- `decoder.py` 404-417 `check_normals`. -/
noncomputable def checkNormals {L : ℕ} (h : Hull L) (limit : ℝ) : List (Face L) :=
  ((h.simplices.zip (h.faceNormals.zip h.centroids)).filter fun t =>
    isSimplexValid h.valid t.1 && decide (¬ angleBetween t.2.2 t.2.1 (some h.listener) > deg2rad limit)).map Prod.fst

/-- Condition of `check_aperture`, `decoder.py` 427-432. -/
noncomputable def apertureBad {L : ℕ} (points : Fin L → Vec3) (listener : Vec3) (limit : ℝ) (f : Face L) : Prop :=
  let a := angleBetween (points (f 0)) (points (f 1)) (some listener)
  let b := angleBetween (points (f 1)) (points (f 2)) (some listener)
  let c := angleBetween (points (f 0)) (points (f 2)) (some listener)
  a > deg2rad limit ∨ b > deg2rad limit ∨ c > deg2rad limit

open Classical in
/-- `decoder.py` 420-436 `check_aperture`. -/
noncomputable def checkAperture {L : ℕ} (h : Hull L) (limit : ℝ) : List (Face L) :=
  h.valid.filter fun f => decide (¬ apertureBad h.points h.listener limit f)

/-- Condition of `check_opening`, `decoder.py` 444-449. -/
noncomputable def openingBad {L : ℕ} (points : Fin L → Vec3) (limit : ℝ) (f : Face L) : Prop :=
  let a := angleBetween (points (f 1)) (points (f 2)) (some (points (f 0)))
  let b := angleBetween (points (f 0)) (points (f 2)) (some (points (f 1)))
  let c := angleBetween (points (f 0)) (points (f 1)) (some (points (f 2)))
  a > deg2rad limit ∨ b > deg2rad limit ∨ c > deg2rad limit

open Classical in
/-- `decoder.py` 439-453 `check_opening`. -/
noncomputable def checkOpening {L : ℕ} (h : Hull L) (limit : ℝ) : List (Face L) :=
  h.valid.filter fun f => decide (¬ openingBad h.points limit f)

/-- `decoder.py` 456-465 `apply_blacklist`; without a blacklist the local variable is never assigned. -/
def applyBlacklist {L : ℕ} (valid : List (Face L)) (blacklist : Option (List ℕ)) : Py (List (Face L)) :=
  match blacklist with
  | none => .error .unboundLocalError
  | some bl => .ok (valid.filter fun f => ! bl.all fun e => decide (∃ i, (f i : ℕ) = e))

/-- `np.argmin` of three integers (`decoder.py` 473). -/
def argmin3 {L : ℕ} (f : Face L) : Fin 3 := if f 0 ≤ f 1 ∧ f 0 ≤ f 2 then 0 else if f 1 ≤ f 2 then 1 else 2

/-- One row of `decoder.py` 468-474 `sort_vertices`: reverse, then roll the smallest entry to the front. -/
def sortFace {L : ℕ} (f : Face L) : Face L :=
  let r : Face L := fun i => f (Fin.rev i)
  fun i => r (i + argmin3 r)

/-- `decoder.py` 468-474 `sort_vertices`. -/
def sortVertices {L : ℕ} (faces : List (Face L)) : List (Face L) := faces.map sortFace

/-- `decoder.py` 49-109 `LoudspeakerSetup.__init__`, without the aliasing of the arguments (see `Model/DecoderHeap.lean`).
`points`/`listener` are what the caller passed. -/
noncomputable def mkHull (qhull : (L : ℕ) → (Fin L → Vec3) → Py (List (Face L))) {L : ℕ} (points : Fin L → Vec3) (listener : Vec3) :
    Py (Hull L) := do
  let pts : Fin L → Vec3 := fun l => points l - listener
  let faces ← qhull L pts
  let simplices := sortVertices faces
  let cs := calculateCentroids pts simplices
  let bc := calculateBarycenter pts
  let enc := checkListenerInside simplices cs bc 0
  return { points := pts, listener := 0, d := fun l => (cart2sph (pts l 0) (pts l 1) (pts l 2) false false).2.2, a := 1,
           simplices, centroids := cs, faceAreas := calculateFaceAreas pts simplices,
           faceNormals := calculateFaceNormals pts simplices, barycenter := bc, encloses := enc, valid := enc,
           invBase := none, charOrder := none }

/-- `decoder.py` 49-109: a new setup has neither Ambisonic hull nor kernel. -/
noncomputable def mkSetup (qhull : (L : ℕ) → (Fin L → Vec3) → Py (List (Face L))) {L : ℕ} (points : Fin L → Vec3) (listener : Vec3) :
    Py (Setup L) := do
  let h ← mkHull qhull points listener
  return { h with ambi := none, kernel := none }

/-- `decoder.py` 151-152. -/
noncomputable def popNormal {L : ℕ} (h : Hull L) : Option ℝ → Hull L
  | some l => { h with valid := checkNormals h l }
  | none => h

/-- `decoder.py` 153-154. -/
noncomputable def popAperture {L : ℕ} (h : Hull L) : Option ℝ → Hull L
  | some l => { h with valid := checkAperture h l }
  | none => h

/-- `decoder.py` 155-156. -/
noncomputable def popOpening {L : ℕ} (h : Hull L) : Option ℝ → Hull L
  | some l => { h with valid := checkOpening h l }
  | none => h

/-- `decoder.py` 157-158; `apply_blacklist` is called with a blacklist only, so its exception cannot occur. -/
def popBlacklist {L : ℕ} (h : Hull L) : Option (List ℕ) → Hull L
  | some bl => match applyBlacklist h.valid (some bl) with
    | .ok v => { h with valid := v }
    | .error _ => h
  | none => h

/-- `decoder.py` 138-158 `pop_triangles`; a limit of `None` bypasses its check. -/
noncomputable def popTriangles {L : ℕ} (h : Hull L) (normal aperture opening : Option ℝ) (blacklist : Option (List ℕ)) : Hull L :=
  popBlacklist (popOpening (popAperture (popNormal h normal) aperture) opening) blacklist

/-! ### VBAP -/

/-- `decoder.py` 523-531 `_invert_triplets`. -/
noncomputable def invertTriplets {L : ℕ} (lstsq : Mat3 → Mat3) (faces : List (Face L)) (points : Fin L → Vec3) : List Mat3 :=
  faces.map fun f => (lstsq (Matrix.of fun i => points (f i))).transpose

/-- `decoder.py` 538-542 / 625-629: projection on one inverted base, normalised and tested. A vanishing norm gives `nan`, for which
the comparison is false. -/
noncomputable def tryFace (p : ℝ) (B : Mat3) (s : Vec3) : Option Vec3 :=
  let g := B.mulVec s
  let n := npNorm p g
  if n = 0 then none
  else if ∀ i, g i / n > -10e-6 then some fun i => g i / n else none

/-- `decoder.py` 537-546 / 624-633: the first face that passes, with its gains. -/
noncomputable def searchFaces (p : ℝ) (s : Vec3) : List Mat3 → ℕ → Option (ℕ × Vec3)
  | [], _ => none
  | B :: Bs, i => match tryFace p B s with
    | some g => some (i, g)
    | none => searchFaces p s Bs (i + 1)

/-- The element writes of `gains[src_idx, valid_simplices[face_idx]] = projection` in row-relative form (`decoder.py` 545, 632);
`valid_simplices[face_idx]` raises `IndexError` when there are fewer simplices than inverted bases. -/
noncomputable def faceWrites {L : ℕ} (valid : List (Face L)) (invs : List Mat3) (p : ℝ) (s : Vec3) : Py (List (Fin L × ℝ)) :=
  match searchFaces p s invs 0 with
  | none => .ok []
  | some (i, g) => match valid[i]? with
    | none => .error .indexError
    | some f => .ok [(f 0, g 0), (f 1, g 1), (f 2, g 2)]

/-- Perform writes on one row of zeros (`decoder.py` 620, 632). -/
noncomputable def writeRow {L : ℕ} (ws : List (Fin L × ℝ)) : Fin L → ℝ := ws.foldl (fun row w => Function.update row w.1 w.2) 0

/-- One iteration of the serial loop, `decoder.py` 624-633. -/
noncomputable def vbapRow {L : ℕ} (valid : List (Face L)) (invs : List Mat3) (p : ℝ) (s : Vec3) : Py (Fin L → ℝ) := do
  let ws ← faceWrites valid invs p s
  return writeRow ws

/-- The serial loop, `decoder.py` 622-633. -/
noncomputable def vbapSerial {L : ℕ} (valid : List (Face L)) (invs : List Mat3) (p : ℝ) (src : List Vec3) :
    Py (List (Fin L → ℝ)) := src.mapM (vbapRow valid invs p)

/-- `decoder.py` 607-612: the inverted bases, taken from the setup when it already has some. -/
noncomputable def vbase {L : ℕ} (lstsq : Mat3 → Mat3) (h : Hull L) (valid : List (Face L)) : List Mat3 :=
  match h.invBase with
  | none => invertTriplets lstsq valid h.points
  | some b => b

/-- `decoder.py` 604-653 `vbap` on one hull (serial path), returning the gains and the hull with the stored inverses. The
exception, if any, is raised after the inverses have been stored. -/
noncomputable def vbapHull {L : ℕ} (lstsq : Mat3 → Mat3) (p : ℝ) (src : List Vec3) (validArg : Option (List (Face L))) (h : Hull L) :
    Py (List (Fin L → ℝ)) × Hull L :=
  let valid := validArg.getD h.valid
  let invs := vbase lstsq h valid
  ((vbapSerial valid invs p src).map fun rows => rows.map fun r l => h.d l ^ h.a * r l, { h with invBase := some invs })

/-- `np.delete(row, idx)` (`decoder.py` 656, 823, 912). -/
def npDelete {α : Type} {n : ℕ} (row : Fin n → α) (idx : List (Fin n)) : List α := ((List.finRange n).filter (· ∉ idx)).map row

/-- `decoder.py` 549-657 `vbap` (serial path). -/
noncomputable def vbap {L : ℕ} (lstsq : Mat3 → Mat3) (p : ℝ) (src : List Vec3) (validArg : Option (List (Face L))) (retain : Bool)
    (s : Setup L) : Py (List (List ℝ)) × Setup L :=
  if retain then
    if validArg.isSome then (.error .assertionError, s)
    else match s.ambi with
      | none => (.error .valueError, s)
      | some am => match am.imaginary with
        | none => (.error .valueError, s)
        | some idx =>
          let r := vbapHull lstsq p src none am.hull
          (r.1.map fun rows => rows.map fun row => npDelete row idx, { s with ambi := some { am with hull := r.2 } })
  else
    let r := vbapHull lstsq p src validArg s.toHull
    (r.1.map fun rows => rows.map fun row => List.ofFn row, { s with toHull := r.2 })

/-! ### The worker pool of VBAP -/

/-- One element write into the shared `(src_count, L)` array (`decoder.py` 545). -/
structure Write (L : ℕ) where
  row : ℕ
  col : Fin L
  val : ℝ

/-- `decoder.py` 535-546 `_vbap_gains_single_source`: the writes of one job, in order. -/
noncomputable def jobWrites {L : ℕ} (valid : List (Face L)) (invs : List Mat3) (p : ℝ) (idx : ℕ) (s : Vec3) : Py (List (Write L)) := do
  let ws ← faceWrites valid invs p s
  return ws.map fun w => ⟨idx, w.1, w.2⟩

/-- All interleavings of the steps of several jobs: any job with remaining steps may execute its next one
(semantics of `multiprocessing.Pool.starmap`, `decoder.py` 643-647, with any number of workers; every order in which workers pick up
jobs is included). -/
inductive Interleaving {α : Type} : List (List α) → List α → Prop
  | done {jobs : List (List α)} (h : ∀ j ∈ jobs, j = []) : Interleaving jobs []
  | step {jobs : List (List α)} {k : ℕ} {w : α} {ws : List α} {t : List α} (hk : jobs[k]? = some (w :: ws))
      (ht : Interleaving (jobs.set k ws) t) : Interleaving jobs (w :: t)

/-- The shared array, initially zero (`decoder.py` 1472-1483), after a sequence of writes. -/
noncomputable def runWrites {L : ℕ} (t : List (Write L)) : ℕ → Fin L → ℝ :=
  t.foldl (fun arr w => Function.update arr w.row (Function.update (arr w.row) w.col w.val)) 0

/-- `decoder.py` 622-649: the possible outcomes of the gain computation with `jobs` worker processes (`None` already replaced by
`cpu_count()`, line 593). `Pool(processes=n)` raises `ValueError` for `n < 1`; an exception in a job is re-raised by `starmap`. -/
inductive VbapOutcome {L : ℕ} (valid : List (Face L)) (invs : List Mat3) (p : ℝ) (src : List Vec3) (jobs : ℤ) :
    Py (List (Fin L → ℝ)) → Prop
  | serial (h : jobs = 1 ∨ src.length < 10) : VbapOutcome valid invs p src jobs (vbapSerial valid invs p src)
  | badPool (h : ¬ (jobs = 1 ∨ src.length < 10)) (hj : jobs < 1) : VbapOutcome valid invs p src jobs (.error .valueError)
  | raised (h : ¬ (jobs = 1 ∨ src.length < 10)) (hj : 1 ≤ jobs) (i : ℕ) (s : Vec3) (e : PyErr) (hs : src[i]? = some s)
      (he : jobWrites valid invs p i s = .error e) : VbapOutcome valid invs p src jobs (.error e)
  | pool (h : ¬ (jobs = 1 ∨ src.length < 10)) (hj : 1 ≤ jobs) (ws : List (List (Write L)))
      (hw : (src.zipIdx.map fun t => jobWrites valid invs p t.2 t.1) = ws.map .ok) (t : List (Write L)) (ht : Interleaving ws t) :
      VbapOutcome valid invs p src jobs (.ok ((List.range src.length).map fun i => runWrites t i))

/-! ### VBIP, characteristic order -/

/-- `decoder.py` 700-711: post-processing of one row of VBAP gains by `vbip`. -/
noncomputable def vbipRow (p : ℝ) (g : List ℝ) : List ℝ :=
  let gsq := g.map fun x => if x < 0 then 0 else x
  let g := gsq.map fun x => √x
  let n := npNorm p (fun i : Fin g.length => g[i])
  if n > 0 then g.map (· / n) else g

/-- `decoder.py` 660-711 `vbip`; VBAP itself is called with its default norm. -/
noncomputable def vbip {L : ℕ} (lstsq : Mat3 → Mat3) (p : ℝ) (src : List Vec3) (validArg : Option (List (Face L))) (retain : Bool)
    (s : Setup L) : Py (List (List ℝ)) × Setup L :=
  let r := vbap lstsq 2 src validArg retain s
  (r.1.map fun rows => rows.map (vbipRow p), r.2)

/-- `sph.py` 766-770 `project_on_sphere` for one point. -/
noncomputable def projectOnSphere (v : Vec3) : Vec3 :=
  let a := cart2sph (v 0) (v 1) (v 2) false false
  let c := sph2cart a.1 a.2.1 1
  ![c.1, c.2.1, c.2.2]

/-- `decoder.py` 733-741: the order from the magnitudes of the energy vectors. `int` of an infinite or undefined value raises
(`OverflowError`/`ValueError`, both modelled as `ValueError`). -/
noncomputable def orderFromMags (mags : List ℝ) : Py ℤ :=
  let spread := mags.map fun m => 2 * arccos m * (180 / π)
  let avg := spread.sum / mags.length
  if avg = 0 then .error .valueError else .ok ⌈2 * 137.9 / avg - 1.51⌉

/-- `decoder.py` 714-741 `characteristic_ambisonic_order`. The shallow copy keeps whatever inverses the setup has stored; the
original setup is not touched. -/
noncomputable def characteristicAmbisonicOrder {L : ℕ} (lstsq : Mat3 → Mat3) (h : Hull L) : Py ℤ := do
  let h' : Hull L := { h with points := fun l => projectOnSphere (h.points l) }
  let src := h.centroids.map projectOnSphere
  let gains ← (vbapHull lstsq 2 src (some h'.encloses) h').1
  orderFromMags (gains.map fun g => (rE h'.points g).2)

/-- `decoder.py` 160-168 `get_characteristic_order`. -/
noncomputable def getCharacteristicOrder {L : ℕ} (lstsq : Mat3 → Mat3) (h : Hull L) : Py ℕ :=
  match h.charOrder with
  | some n => .ok n
  | none => do
    let n ← characteristicAmbisonicOrder lstsq h
    if n < 1 then .error .valueError else .ok n.toNat

/-! ### Ambisonic setup -/

/-- Number of faces in `valid` that contain both vertices of an edge (`decoder.py` 497-499). -/
def edgeCount {L : ℕ} (valid : List (Face L)) (e : Fin L × Fin L) : ℕ :=
  valid.countP fun f => (List.finRange 3).countP (fun i => decide (f i = e.1 ∨ f i = e.2)) == 2

/-- `decoder.py` 486-501: the rim edges. -/
def rimEdges {L : ℕ} (valid : List (Face L)) : List (Fin L × Fin L) :=
  valid.flatMap fun f => [(f 0, f 1), (f 1, f 2), (f 0, f 2)].filter fun e => edgeCount valid e == 1

/-- `decoder.py` 477-520 `find_imaginary_loudspeaker`. Simplification: lines 513-518 assume exactly one matching row per face. -/
noncomputable def findImaginaryLoudspeaker {L : ℕ} (h : Hull L) : Py Vec3 :=
  let verts := (rimEdges h.valid).flatMap fun e => [e.1, e.2]
  let counts := verts.map fun v => verts.count v
  if ¬ counts.all (· ≥ 2) then .error .notImplementedError
  else if counts.all (· == 3) then .error .runtimeError
  else
    let rows := h.simplices.zip (h.faceAreas.zip h.faceNormals)
    let pick (f : Face L) := rows.filter fun t => (List.finRange 3).countP (fun i => decide (∃ j, f j = t.1 i)) == 3
    let avgN : Vec3 := (h.valid.map fun f => ((pick f).map fun t => t.2.1 • t.2.2).sum).sum
    let avgD : ℝ := (h.valid.map fun f => ((pick f).map fun t => (∑ i, h.d (t.1 i)) / 3).sum).sum
    .ok (-(1 / (avgD / h.valid.length) ^ 3) • avgN)

/-- `decoder.py` 206-222: the imaginary loudspeakers to append, if any. -/
noncomputable def imaginaryPoints {L : ℕ} (h : Hull L) (updateHull : Bool) (imaginary : Option (List Vec3)) :
    Py (Option (List Vec3)) :=
  if updateHull then
    match imaginary with
    | none => do let v ← findImaginaryLoudspeaker h; return some [v]
    | some vs => .ok (some vs)
  else .ok none

/-- `decoder.py` 206-236: the new Ambisonic hull. -/
noncomputable def mkAmbi (qhull : (L : ℕ) → (Fin L → Vec3) → Py (List (Face L))) {L : ℕ} (h : Hull L) (imag : Option (List Vec3)) :
    Py (Ambi L) := do
  let vs := imag.getD []
  let hull ← mkHull qhull (Fin.append h.points fun i : Fin vs.length => vs[i]) 0
  return { M := vs.length, hull,
           imaginary := imag.map fun _ => (List.finRange vs.length).map (Fin.natAdd L) }

/-- `decoder.py` 198-201: the characteristic order given, or computed. -/
noncomputable def setupOrder {L : ℕ} (lstsq : Mat3 → Mat3) (h : Hull L) : Option ℕ → Py ℕ
  | some n => .ok n
  | none => getCharacteristicOrder lstsq h

/-- `decoder.py` 206-246: the Ambisonic hull and the kernel. -/
noncomputable def setupHulls (qhull : (L : ℕ) → (Fin L → Vec3) → Py (List (Face L))) (ndesign : ℤ → Option (List Vec3)) {L : ℕ}
    (h : Hull L) (updateHull : Bool) (imaginary : Option (List Vec3)) (nk : ℤ) : Py (Ambi L × Kernel) := do
  let imag ← imaginaryPoints h updateHull imaginary
  let am ← mkAmbi qhull h imag
  let (vs, _) ← Grids.loadNDesign ndesign (2 * nk)
  let kpts : Fin vs.length → Vec3 := fun i => vs[i]
  let _ ← qhull vs.length kpts
  return (am, { J := vs.length, points := kpts, nKernel := nk })

/-- `decoder.py` 170-246 `ambisonics_setup`. `ndesign` is the data of `grids.load_n_design`. With `N_kernel=None` the call
`warn(msg, int)` (line 200) raises `TypeError`. Qhull errors are `RuntimeError`s. -/
noncomputable def ambisonicsSetup (qhull : (L : ℕ) → (Fin L → Vec3) → Py (List (Face L))) (lstsq : Mat3 → Mat3)
    (ndesign : ℤ → Option (List Vec3)) {L : ℕ} (s : Setup L) (updateHull : Bool) (imaginary : Option (List Vec3))
    (charOrder : Option ℕ) (nKernel : Option ℤ) : Py Unit × Setup L :=
  match setupOrder lstsq s.toHull charOrder with
  | .error e => (.error e, s)
  | .ok n =>
    let s := { s with charOrder := some n }
    match nKernel with
    | none => (.error .typeError, s)
    | some nk =>
      match setupHulls qhull ndesign s.toHull updateHull imaginary nk with
      | .error e => (.error e, s)
      | .ok (am, k) => (.ok (), { s with ambi := some am, kernel := some k })

/-! ### Ambisonic panning and decoding -/

/-- Azimuth and zenith of a point (`utils.cart2sph` as called in `decoder.py` 808-815, 1118). -/
noncomputable def dirOf (v : Vec3) : ℝ × ℝ := let a := cart2sph (v 0) (v 1) (v 2) false false; (a.1, a.2.1)

/-- `sph.sh_matrix(N, ...)` at the directions of points (`decoder.py` 811, 816, 986, 1119). -/
noncomputable def shAt (N : ℕ) {J : ℕ} (pts : Fin J → Vec3) : Matrix (Fin J) (Fin ((N + 1) ^ 2)) ℝ :=
  shMat N (fun j => (dirOf (pts j)).1) (fun j => (dirOf (pts j)).2)

/-- `decoder.py` 802-805 / 976-979: `repeat_per_order(unity_gain(max_rE_weights(N)))`. -/
noncomputable def taper (N : ℕ) : Fin ((N + 1) ^ 2) → ℝ := repVec N fun n => (unityGain (maxREWeights N)).getD n 0

/-- `decoder.py` 887-894: the tapering of `allrap2`, including line 891 as written. -/
noncomputable def taper2 (N : ℕ) : Fin ((N + 1) ^ 2) → ℝ :=
  let a := unityGain (maxREWeights N)
  let aw := √(∑ n ∈ Finset.range (N + 1), (2 * ((n : ℝ) + 1)) / (4 * π) * a.getD n 0 ^ 2)
  repVec N fun n => a.getD n 0 / aw

/-- VBAP gains of the kernel on the Ambisonic hull (`decoder.py` 798-800, 972-974) as a matrix `(J, L+M)`. -/
noncomputable def kernelGains {L : ℕ} (lstsq : Mat3 → Mat3) (am : Ambi L) (k : Kernel) :
    Py (Matrix (Fin k.J) (Fin (L + am.M)) ℝ) × Ambi L :=
  let r := vbapHull lstsq 2 (List.ofFn k.points) none am.hull
  (r.1.map fun rows j l => (rows.getD j 0) l, { am with hull := r.2 })

/-- The columns that remain after deleting the imaginary loudspeakers (`decoder.py` 821-823, 993-995). -/
def realIdx {L : ℕ} (am : Ambi L) : List (Fin (L + am.M)) :=
  match am.imaginary with
  | none => List.finRange (L + am.M)
  | some idx => (List.finRange (L + am.M)).filter (· ∉ idx)

/-- Prologue shared by `allrap`, `allrap2`, `allrad`, `allrad2` (`decoder.py` 780-789): both hulls must be there; the order
defaults to the characteristic order (`TypeError` later on if that is `None`). -/
def ambiPrologue {L : ℕ} (s : Setup L) (N : Option ℕ) : Py (Ambi L × Kernel × ℕ) :=
  match s.ambi with
  | none => .error .valueError
  | some am => match s.kernel with
    | none => .error .valueError
    | some k => match N with
      | some n => .ok (am, k, n)
      | none => match s.charOrder with
        | some n => .ok (am, k, n)
        | none => .error .typeError

/-- `decoder.py` 795: `src / norm(src)`. -/
noncomputable def normalizeSrc (v : Vec3) : Vec3 := fun c => v c / norm3 v

/-- `decoder.py` 744-826 `allrap`: one row of gains per source. -/
noncomputable def allrap {L n : ℕ} (lstsq : Mat3 → Mat3) (src : Fin n → Vec3) (N : Option ℕ) (s : Setup L) :
    Py (Fin n → List ℝ) × Setup L :=
  match ambiPrologue s N with
  | .error e => (.error e, s)
  | .ok (am, k, N) =>
    let r := kernelGains lstsq am k
    let Ys := shAt N fun i => normalizeSrc (src i)
    let Yk := shAt N k.points
    let Gbld := Ys * Matrix.diagonal (taper N) * Yk.transpose
    (r.1.map fun Gk i => (realIdx am).map fun l => ((4 * π / k.J) • (Gbld * Gk)) i l, { s with ambi := some r.2 })

/-- `decoder.py` 829-915 `allrap2`. -/
noncomputable def allrap2 {L n : ℕ} (lstsq : Mat3 → Mat3) (src : Fin n → Vec3) (N : Option ℕ) (s : Setup L) :
    Py (Fin n → List ℝ) × Setup L :=
  match ambiPrologue s N with
  | .error e => (.error e, s)
  | .ok (am, k, N) =>
    let r := kernelGains lstsq am k
    let Ys := shAt N fun i => normalizeSrc (src i)
    let Yk := shAt N k.points
    let Gbld := Ys * Matrix.diagonal (taper2 N) * Yk.transpose
    (r.1.map fun Gk i => (realIdx am).map fun l => √(4 * π / k.J * ∑ j, Gbld i j ^ 2 * Gk j l ^ 2),
      { s with ambi := some r.2 })

/-- `D @ F_nm` where `D` has `(N+1)**2` columns: `ValueError` on a mismatch (`decoder.py` 998, 1071). -/
noncomputable def applyDecoder {K S R : ℕ} {N : ℕ} (D : Matrix (Fin R) (Fin ((N + 1) ^ 2)) ℝ) (F : Matrix (Fin K) (Fin S) ℝ) :
    Py (Matrix (Fin R) (Fin S) ℝ) :=
  if h : (N + 1) ^ 2 = K then .ok (D * F.submatrix (Fin.cast h) id) else .error .valueError

/-- `decoder.py` 918-1000 `allrad`: the loudspeaker signals, one per remaining loudspeaker. -/
noncomputable def allrad {L K S : ℕ} (lstsq : Mat3 → Mat3) (F : Matrix (Fin K) (Fin S) ℝ) (N : Option ℕ) (s : Setup L) :
    Py (List (Fin S → ℝ)) × Setup L :=
  match ambiPrologue s N with
  | .error e => (.error e, s)
  | .ok (am, k, N) =>
    if (N : ℤ) ≠ shOrder K then (.error .assertionError, s)
    else
      let r := kernelGains lstsq am k
      let out : Py (List (Fin S → ℝ)) := do
        let Gk ← r.1
        let D := ((4 * π / k.J) • (Gk.transpose * shAt N k.points)) * Matrix.diagonal (taper N)
        let sig ← applyDecoder D F
        return (realIdx am).map fun l => sig l
      (out, { s with ambi := some r.2 })

/-- `decoder.py` 1003-1072 `allrad2`. -/
noncomputable def allrad2 {L K S : ℕ} (lstsq : Mat3 → Mat3) (F : Matrix (Fin K) (Fin S) ℝ) (N : Option ℕ) (s : Setup L) :
    Py (List (Fin S → ℝ)) × Setup L :=
  match ambiPrologue s N with
  | .error e => (.error e, s)
  | .ok (am, k, N) =>
    if (N : ℤ) ≠ shOrder K then (.error .assertionError, s)
    else
      let r := allrap2 lstsq k.points (some N) s
      let out : Py (List (Fin S → ℝ)) := do
        let Gk ← r.1
        let nl := (realIdx am).length
        let G : Matrix (Fin k.J) (Fin nl) ℝ := fun j l => (Gk j).getD l 0
        let D := (4 * π / k.J) • (G.transpose * shAt N k.points)
        let sig ← applyDecoder D F
        return (List.finRange nl).map fun l => sig l
      (out, r.2)

/-- Order used by `sad`, `mad`, `epad` (`decoder.py` 1108-1112): `N_sph`, else a non-zero stored order, else computed. -/
noncomputable def decodingOrder {L : ℕ} (lstsq : Mat3 → Mat3) (h : Hull L) (N : Option ℕ) : Py ℕ :=
  match N with
  | some n => .ok n
  | none => match h.charOrder with
    | some (n + 1) => .ok (n + 1)
    | _ => getCharacteristicOrder lstsq h

/-- `decoder.py` 1115-1116, 1125: check of the input order and `D @ F_nm[:(N+1)**2]`. -/
noncomputable def applyTruncated {K S R : ℕ} {N : ℕ} (D : Matrix (Fin R) (Fin ((N + 1) ^ 2)) ℝ) (F : Matrix (Fin K) (Fin S) ℝ) :
    Py (Matrix (Fin R) (Fin S) ℝ) :=
  if ¬ shOrder K ≥ (N : ℤ) then .error .assertionError
  else if h : (N + 1) ^ 2 ≤ K then .ok (D * F.submatrix (Fin.castLE h) id)
  else .error .valueError

/-- `decoder.py` 1075-1126 `sad`. -/
noncomputable def sad {L K S : ℕ} (lstsq : Mat3 → Mat3) (F : Matrix (Fin K) (Fin S) ℝ) (h : Hull L) (N : Option ℕ) :
    Py (Matrix (Fin L) (Fin S) ℝ) := do
  let N ← decodingOrder lstsq h N
  applyTruncated (√(4 * π / L) • (√(4 * π / ((N : ℝ) + 1) ^ 2) • shAt N h.points)) F

/-- `decoder.py` 1129-1180 `mad`; `pinv` is `np.linalg.pinv`. -/
noncomputable def mad {L K S : ℕ} (lstsq : Mat3 → Mat3)
    (pinv : {m n : ℕ} → Matrix (Fin m) (Fin n) ℝ → Matrix (Fin n) (Fin m) ℝ) (F : Matrix (Fin K) (Fin S) ℝ) (h : Hull L)
    (N : Option ℕ) : Py (Matrix (Fin L) (Fin S) ℝ) := do
  let N ← decodingOrder lstsq h N
  applyTruncated (√((L : ℝ) / ((N : ℝ) + 1) ^ 2) • (pinv (shAt N h.points)).transpose) F

/-- `np.eye(L, K)` (`decoder.py` 1244). -/
def npEye (L K : ℕ) : Matrix (Fin L) (Fin K) ℝ := fun i j => if (i : ℕ) = j then 1 else 0

/-- `decoder.py` 1183-1252 `epad`; `svd` is `np.linalg.svd` (factors `U` and `VH`, the singular values are unused). -/
noncomputable def epad {L K S : ℕ} (lstsq : Mat3 → Mat3)
    (svd : {m n : ℕ} → Matrix (Fin m) (Fin n) ℝ → Matrix (Fin m) (Fin m) ℝ × Matrix (Fin n) (Fin n) ℝ)
    (F : Matrix (Fin K) (Fin S) ℝ) (h : Hull L) (N : Option ℕ) : Py (Matrix (Fin L) (Fin S) ℝ) := do
  let N ← decodingOrder lstsq h N
  let UV := svd (shAt N h.points)
  let D := UV.1 * npEye L ((N + 1) ^ 2) * UV.2
  applyTruncated (√((L : ℝ) / ((N : ℝ) + 1) ^ 2) • (√(4 * π / L) • D)) F

/-- `decoder.py` 1255-1292 `nearest_loudspeaker`, one source. A setup without loudspeakers (`argmax` of an empty row) raises
`ValueError`; a loudspeaker at the listener position (`d = 0`, `nan`) is not modelled. -/
noncomputable def nearestLoudspeaker {L : ℕ} (h : Hull L) (s : Vec3) : Py (Fin L → ℝ) := do
  let p := List.ofFn fun l => s ⬝ᵥ (fun c => h.points l c / h.d l)
  let i ← npArgmax p
  return fun l => if (l : ℕ) = i then 1 * h.d l ^ h.a else 0

/-- `decoder.py` 292-311 `loudspeaker_signals`: `gains` has shape `(S, R)`; the result is indexed by loudspeaker, then sample.
A signal whose length neither matches the number of gain rows nor is one cannot be broadcast (`ValueError`). -/
noncomputable def loudspeakerSignals {L S R : ℕ} (_h : Hull L) (gains : Matrix (Fin S) (Fin R) ℝ) (sig : Option (List ℝ)) :
    Py (List (List ℝ)) :=
  let sig := sig.getD (List.replicate S 1)
  if R ≠ L then .error .assertionError
  else if sig.length = S then .ok ((List.finRange R).map fun l => (List.finRange S).map fun s : Fin S => sig.getD s 0 * gains s l)
  else if S = 1 then .ok ((List.finRange R).map fun l => sig.map fun x => x * (if h : 0 < S then gains ⟨0, h⟩ l else 0))
  else if sig.length = 1 then .ok ((List.finRange R).map fun l => (List.finRange S).map fun s : Fin S => sig.getD 0 0 * gains s l)
  else .error .valueError

end Verif.Decoder
