import Verif.Props.Vbap
import Verif.Props.AngleBetween
import Verif.Props.ShRotation
import Verif.Props.AmbiDecoders
import Verif.Props.SphDesigns
import Verif.Props.SphMisc
import Verif.Props.DesignDecoding
import Verif.Props.RetainOutside
import Verif.Props.HullChecks
import Verif.Props.Rotations3
import Verif.Props.Triangles

/-!
C138: turning the whole scene (loudspeakers, listener and sound field) about the origin changes no loudspeaker signal.
-/

namespace Verif.Props
open Real Matrix Verif.Utils Verif.Decoder Verif.Sph

/-- A setup (`decoder.py` 36-110, attributes of `LoudspeakerSetup`) turned about the origin by the orthogonal matrix `R`: points and directions are turned, distances,
areas and lists of faces stay. -/
noncomputable def turn {L : ℕ} (R : Mat3) (h : Hull L) : Hull L :=
  { h with
    points := fun l => R.mulVec (h.points l)
    listener := R.mulVec h.listener
    centroids := h.centroids.map R.mulVec
    faceNormals := h.faceNormals.map R.mulVec
    barycenter := R.mulVec h.barycenter
    invBase := h.invBase.map fun b => b.map (· * R.transpose) }

theorem turn_dot {R : Mat3} (hR : R.transpose * R = 1) (v w : Vec3) : R.mulVec v ⬝ᵥ R.mulVec w = v ⬝ᵥ w := by
  rw [Matrix.dotProduct_mulVec, Matrix.vecMul_mulVec, hR, Matrix.vecMul_one]

theorem turn_norm {R : Mat3} (hR : R.transpose * R = 1) (v : Vec3) : norm3 (R.mulVec v) = norm3 v := by
  unfold norm3; rw [turn_dot hR]

theorem turn_angle {R : Mat3} (hR : R.transpose * R = 1) (v w : Vec3) (vi : Option Vec3) :
    angleBetween (R.mulVec v) (R.mulVec w) (vi.map R.mulVec) = angleBetween v w vi := by
  unfold angleBetween
  cases vi with
  | none => simp only [Option.map_none, turn_dot hR, turn_norm hR]
  | some c => simp only [Option.map_some, ← Matrix.mulVec_sub, turn_dot hR, turn_norm hR]

/-- Least squares solutions of least norm are unique. -/
theorem lstsq_unique {Q K S : ℕ} {A : Matrix (Fin Q) (Fin K) ℝ} {b : Matrix (Fin Q) (Fin S) ℝ} {x y : Matrix (Fin K) (Fin S) ℝ}
    (hx : IsLstsq A b x) (hy : IsLstsq A b y) : x = y := by
  ext k s
  have e1 := le_antisymm (hx.min s fun k => y k s) (hy.min s fun k => x k s)
  have n1 := le_antisymm (hx.least s (fun k => y k s) e1.symm) (hy.least s (fun k => x k s) e1)
  set m : Fin K → ℝ := fun k => (x k s + y k s) / 2 with hm
  have hAm : ∀ q, A.mulVec m q = (A.mulVec (fun k => x k s) q + A.mulVec (fun k => y k s) q) / 2 := by
    intro q
    simp only [Matrix.mulVec, dotProduct, hm, ← Finset.sum_add_distrib, Finset.sum_div]
    exact Finset.sum_congr rfl fun k _ => by ring
  have em : ∑ q, (A.mulVec m q - b q s) ^ 2 = ∑ q, (A.mulVec (fun k => x k s) q - b q s) ^ 2 := by
    refine le_antisymm ?_ (hx.min s m)
    have h1 : ∑ q, (A.mulVec m q - b q s) ^ 2 ≤ ∑ q, ((A.mulVec (fun k => x k s) q - b q s) ^ 2 + (A.mulVec (fun k => y k s) q - b q s) ^ 2) / 2 := by
      refine Finset.sum_le_sum fun q _ => ?_
      rw [hAm]
      nlinarith [sq_nonneg (A.mulVec (fun k => x k s) q - A.mulVec (fun k => y k s) q)]
    rw [← Finset.sum_div, Finset.sum_add_distrib, ← e1] at h1
    linarith
  have nm := hx.least s m em
  have hid : ∑ k, m k ^ 2 = (∑ k, x k s ^ 2 + ∑ k, y k s ^ 2) / 2 - (∑ k, (x k s - y k s) ^ 2) / 4 := by
    rw [← Finset.sum_add_distrib, Finset.sum_div, Finset.sum_div, ← Finset.sum_sub_distrib]
    exact Finset.sum_congr rfl fun k _ => by rw [hm]; ring
  have hz : ∑ k, (x k s - y k s) ^ 2 = 0 := le_antisymm (by linarith) (Finset.sum_nonneg fun _ _ => sq_nonneg _)
  have := (Finset.sum_eq_zero_iff_of_nonneg fun _ _ => sq_nonneg _).1 hz k (Finset.mem_univ k)
  have := pow_eq_zero_iff (two_ne_zero) |>.1 this
  linarith

/-- Turning the points of a triplet turns the columns of its least squares inverse. -/
theorem lstsq_turned {lstsq : Mat3 → Mat3} (hl : LstsqSpec lstsq) {R : Mat3} (hR : R.transpose * R = 1) (V : Mat3) :
    lstsq (V * R.transpose) = R * lstsq V := by
  have hn : ∀ y : Fin 3 → ℝ, ∑ k, (R.mulVec y) k ^ 2 = ∑ k, y k ^ 2 := by
    intro y
    have := turn_dot hR y y
    simpa [dotProduct, sq] using this
  have hR' : R * R.transpose = 1 := mul_eq_one_comm.1 hR
  have hn' : ∀ y : Fin 3 → ℝ, ∑ k, (R.transpose.mulVec y) k ^ 2 = ∑ k, y k ^ 2 := by
    intro y
    have := hn (R.transpose.mulVec y)
    rwa [Matrix.mulVec_mulVec, hR', Matrix.one_mulVec, eq_comm] at this
  have hx : ∀ s : Fin 3, (fun k => (R * lstsq V) k s) = R.mulVec fun k => lstsq V k s := by
    intro s; funext k; rfl
  have hc : ∀ v : Fin 3 → ℝ, R.transpose.mulVec (R.mulVec v) = v := fun v => by rw [Matrix.mulVec_mulVec, hR, Matrix.one_mulVec]
  refine lstsq_unique (hl _) ⟨fun s y => ?_, fun s y hy => ?_⟩
  · rw [hx, ← Matrix.mulVec_mulVec, hc, ← Matrix.mulVec_mulVec]
    exact (hl V).min s (R.transpose.mulVec y)
  · rw [hx, ← Matrix.mulVec_mulVec, ← Matrix.mulVec_mulVec, hc] at hy
    have := (hl V).least s (R.transpose.mulVec y) hy
    rw [hn'] at this
    have e : ∑ k, (R * lstsq V) k s ^ 2 = ∑ k, (R.mulVec fun k => lstsq V k s) k ^ 2 := rfl
    rw [e, hn]
    exact this

theorem turn_search {R : Mat3} (hR : R.transpose * R = 1) (p : ℝ) (s : Vec3) (Bs : List Mat3) (i : ℕ) :
    searchFaces p (R.mulVec s) (Bs.map (· * R.transpose)) i = searchFaces p s Bs i := by
  induction Bs generalizing i with
  | nil => rfl
  | cons B Bs ih =>
    have : tryFace p (B * R.transpose) (R.mulVec s) = tryFace p B s := by
      unfold tryFace
      rw [Matrix.mulVec_mulVec, Matrix.mul_assoc, hR, Matrix.mul_one]
    simp only [List.map_cons, searchFaces, this, ih]

theorem turn_vbase {L : ℕ} {lstsq : Mat3 → Mat3} (hl : LstsqSpec lstsq) {R : Mat3} (hR : R.transpose * R = 1) (h : Hull L) (valid : List (Face L)) :
    vbase lstsq (turn R h) valid = (vbase lstsq h valid).map (· * R.transpose) := by
  unfold vbase
  simp only [turn]
  cases h.invBase with
  | some b => rfl
  | none =>
    simp only [Option.map_none, invertTriplets, List.map_map]
    refine List.map_congr_left fun f _ => ?_
    have e : (Matrix.of fun i => R.mulVec (h.points (f i)) : Mat3) = (Matrix.of fun i => h.points (f i)) * R.transpose := by
      ext i j
      simp [Matrix.mul_apply, Matrix.mulVec, dotProduct, mul_comm]
    rw [e, lstsq_turned hl hR, Matrix.transpose_mul]
    rfl

/-- **C138** VBAP: with loudspeakers and sources turned together every source gets the same gains, whatever the state of the setup, and the setup left behind is the
turned one. -/
theorem C138_vbap {L : ℕ} (lstsq : Mat3 → Mat3) (hl : LstsqSpec lstsq) (R : Mat3) (hR : R.transpose * R = 1) (p : ℝ) (src : List Vec3)
    (valid : Option (List (Face L))) (h : Hull L) :
    vbapHull lstsq p (src.map R.mulVec) valid (turn R h) = ((vbapHull lstsq p src valid h).1, turn R (vbapHull lstsq p src valid h).2) := by
  unfold vbapHull
  simp only [turn_vbase hl hR]
  have e : vbapSerial (valid.getD (turn R h).valid) ((vbase lstsq h (valid.getD (turn R h).valid)).map (· * R.transpose)) p (src.map R.mulVec)
      = vbapSerial (valid.getD h.valid) (vbase lstsq h (valid.getD h.valid)) p src := by
    unfold vbapSerial
    induction src with
    | nil => rfl
    | cons s src ih =>
      rw [List.map_cons, List.mapM_cons, List.mapM_cons, ih]
      have : vbapRow (valid.getD (turn R h).valid) ((vbase lstsq h (valid.getD (turn R h).valid)).map (· * R.transpose)) p (R.mulVec s)
          = vbapRow (valid.getD h.valid) (vbase lstsq h (valid.getD h.valid)) p s := by
        unfold vbapRow faceWrites
        rw [turn_search hR]
        rfl
      rw [this]
  rw [e]
  rfl

/-- A setup with its Ambisonics version (`decoder.py` 170-244 `ambisonics_setup`) turned about the origin. -/
noncomputable def turnSetup {L : ℕ} (R : Mat3) (s : Setup L) : Setup L :=
  { s with toHull := turn R s.toHull, ambi := s.ambi.map fun am => { am with hull := turn R am.hull } }

/-- **C138** `vbap` and `vbip`, with or without imaginary loudspeakers: turned sources on the turned setup get the same gains (or the same error), and the setup
afterwards is the turned one. -/
theorem C138_panning {L : ℕ} (lstsq : Mat3 → Mat3) (hl : LstsqSpec lstsq) (R : Mat3) (hR : R.transpose * R = 1) (p : ℝ) (src : List Vec3)
    (valid : Option (List (Face L))) (retain : Bool) (s : Setup L) :
    vbap lstsq p (src.map R.mulVec) valid retain (turnSetup R s) = ((vbap lstsq p src valid retain s).1, turnSetup R (vbap lstsq p src valid retain s).2) ∧
      vbip lstsq p (src.map R.mulVec) valid retain (turnSetup R s) = ((vbip lstsq p src valid retain s).1, turnSetup R (vbip lstsq p src valid retain s).2) := by
  have key : ∀ p, vbap lstsq p (src.map R.mulVec) valid retain (turnSetup R s) = ((vbap lstsq p src valid retain s).1, turnSetup R (vbap lstsq p src valid retain s).2) := by
    intro p
    cases retain with
    | false =>
      unfold vbap
      simp only [Bool.false_eq_true, if_false]
      have := C138_vbap lstsq hl R hR p src valid s.toHull
      simp only [turnSetup, this]
    | true =>
      cases hv : valid with
      | some v => rfl
      | none =>
        cases ha : s.ambi with
        | none => simp [vbap, turnSetup, ha]
        | some am =>
          cases hi : am.imaginary with
          | none => simp [vbap, turnSetup, ha, hi]
          | some idx => simp [vbap, turnSetup, ha, hi, C138_vbap lstsq hl R hR p src none am.hull]
  refine ⟨key p, ?_⟩
  unfold vbip
  rw [key 2]

/-- `C138_panning`: on a setup with one imaginary loudspeaker below, a source panned between front, left and below is served like the same source of the setup turned
by 1, 1/2 and 1/3. -/
example : ∃ lstsq : Mat3 → Mat3, LstsqSpec lstsq ∧ ∃ rows, (vbap lstsq 2 [![1, 1, -1]] none true fiveSetup).1 = .ok rows ∧ rows.length = 1 ∧
    (vbap lstsq 2 [(rotationEuler 1 (1 / 2) (1 / 3)).mulVec ![1, 1, -1]] none true (turnSetup (rotationEuler 1 (1 / 2) (1 / 3)) fiveSetup)).1 = .ok rows := by
  obtain ⟨lstsq, hl⟩ := exists_lstsq3
  obtain ⟨rows', h1', h2', _⟩ := C104_closed_hull lstsq (p := 2) (by norm_num) fiveSetup ⟨1, Oct.hull, some [5]⟩ rfl rfl (oct_cache lstsq) Oct.inj
    [![1, 1, -1]]
  refine ⟨lstsq, hl, rows', h1', h2', ?_⟩
  rw [← h1', ← (congrArg Prod.fst (C138_panning lstsq hl _ (C04_isRotation 1 (1 / 2) (1 / 3)).1 2 [![1, 1, -1]] none true fiveSetup).1)]
  rfl

/-- **C138** Nearest loudspeaker selection. -/
theorem C138_nls {L : ℕ} (R : Mat3) (hR : R.transpose * R = 1) (h : Hull L) (s : Vec3) :
    nearestLoudspeaker (turn R h) (R.mulVec s) = nearestLoudspeaker h s := by
  unfold nearestLoudspeaker
  have : ∀ l, R.mulVec s ⬝ᵥ (fun c => (turn R h).points l c / (turn R h).d l) = s ⬝ᵥ fun c => h.points l c / h.d l := by
    intro l
    have e1 : (fun c => (turn R h).points l c / (turn R h).d l) = R.mulVec fun c => h.points l c / h.d l := by
      have : (fun c => h.points l c / h.d l) = (1 / h.d l) • h.points l := by funext c; simp [div_eq_inv_mul]
      rw [this, Matrix.mulVec_smul]
      funext c
      simp [turn, div_eq_inv_mul]
    rw [e1, turn_dot hR]
  simp only [this]
  rfl

theorem turn_cross {R : Mat3} (hR : R.transpose * R = 1) (hdet : R.det = 1) (v w : Vec3) :
    crossProduct (R.mulVec v) (R.mulVec w) = R.mulVec (crossProduct v w) := by
  have hR' : R * R.transpose = 1 := mul_eq_one_comm.1 hR
  have hadj : R.adjugate = R.transpose := by
    have h1 := Matrix.adjugate_mul R
    rw [hdet, one_smul] at h1
    calc R.adjugate = R.adjugate * (R * R.transpose) := by rw [hR', Matrix.mul_one]
      _ = R.transpose := by rw [← Matrix.mul_assoc, h1, Matrix.one_mul]
  rw [Matrix.adjugate_fin_three] at hadj
  have e : ∀ i j, (!![R 1 1 * R 2 2 - R 1 2 * R 2 1, -(R 0 1 * R 2 2) + R 0 2 * R 2 1, R 0 1 * R 1 2 - R 0 2 * R 1 1;
      -(R 1 0 * R 2 2) + R 1 2 * R 2 0, R 0 0 * R 2 2 - R 0 2 * R 2 0, -(R 0 0 * R 1 2) + R 0 2 * R 1 0;
      R 1 0 * R 2 1 - R 1 1 * R 2 0, -(R 0 0 * R 2 1) + R 0 1 * R 2 0, R 0 0 * R 1 1 - R 0 1 * R 1 0] : Mat3) i j = R j i := fun i j => congrFun (congrFun hadj i) j
  have e00 : R 1 1 * R 2 2 - R 1 2 * R 2 1 = R 0 0 := e 0 0
  have e01 : -(R 0 1 * R 2 2) + R 0 2 * R 2 1 = R 1 0 := e 0 1
  have e02 : R 0 1 * R 1 2 - R 0 2 * R 1 1 = R 2 0 := e 0 2
  have e10 : -(R 1 0 * R 2 2) + R 1 2 * R 2 0 = R 0 1 := e 1 0
  have e11 : R 0 0 * R 2 2 - R 0 2 * R 2 0 = R 1 1 := e 1 1
  have e12 : -(R 0 0 * R 1 2) + R 0 2 * R 1 0 = R 2 1 := e 1 2
  have e20 : R 1 0 * R 2 1 - R 1 1 * R 2 0 = R 0 2 := e 2 0
  have e21 : -(R 0 0 * R 2 1) + R 0 1 * R 2 0 = R 1 2 := e 2 1
  have e22 : R 0 0 * R 1 1 - R 0 1 * R 1 0 = R 2 2 := e 2 2
  funext c
  fin_cases c <;> simp [cross_apply, Matrix.mulVec, dotProduct, Fin.sum_univ_three]
  · linear_combination (v 1 * w 2 - v 2 * w 1) * e00 + (v 2 * w 0 - v 0 * w 2) * e10 + (v 0 * w 1 - v 1 * w 0) * e20
  · linear_combination (v 1 * w 2 - v 2 * w 1) * e01 + (v 2 * w 0 - v 0 * w 2) * e11 + (v 0 * w 1 - v 1 * w 0) * e21
  · linear_combination (v 1 * w 2 - v 2 * w 1) * e02 + (v 2 * w 0 - v 0 * w 2) * e12 + (v 0 * w 1 - v 1 * w 0) * e22

theorem turn_centroid {L : ℕ} (R : Mat3) (pts : Fin L → Vec3) (f : Face L) :
    centroid (fun l => R.mulVec (pts l)) f = R.mulVec (centroid pts f) := by
  funext c
  simp only [centroid, Matrix.mulVec, dotProduct, Fin.sum_univ_three]
  ring

theorem turn_barycenter {L : ℕ} (R : Mat3) (pts : Fin L → Vec3) :
    calculateBarycenter (fun l => R.mulVec (pts l)) = R.mulVec (calculateBarycenter pts) := by
  funext c
  simp only [calculateBarycenter, Matrix.mulVec, dotProduct, Fin.sum_univ_three, Finset.sum_add_distrib, ← Finset.mul_sum]
  ring

theorem turn_cross_norm {R : Mat3} (hR : R.transpose * R = 1) (v w : Vec3) :
    norm3 (crossProduct (R.mulVec v) (R.mulVec w)) = norm3 (crossProduct v w) := by
  unfold norm3
  rw [cross_dot_cross, cross_dot_cross]
  simp only [turn_dot hR]

/-- `mkHull` of points transformed by an orthogonal matrix, given that the face normals are transformed alike. -/
theorem mkHull_turned {L : ℕ} (qhull : (L : ℕ) → (Fin L → Vec3) → Py (List (Face L))) (R : Mat3) (hR : R.transpose * R = 1)
    (points : Fin L → Vec3) (listener : Vec3)
    (hq : qhull L (fun l => R.mulVec (points l - listener)) = qhull L fun l => points l - listener)
    (hnn : ∀ (faces : List (Face L)), qhull L (fun l => points l - listener) = .ok faces →
      calculateFaceNormals (fun l => R.mulVec (points l - listener)) (sortVertices faces) = (calculateFaceNormals (fun l => points l - listener) (sortVertices faces)).map R.mulVec) :
    mkHull qhull (fun l => R.mulVec (points l)) (R.mulVec listener) = (mkHull qhull points listener).map (turn R) := by
  unfold mkHull
  simp only [← Matrix.mulVec_sub, hq]
  cases hf : qhull L fun l => points l - listener with
  | error e => rfl
  | ok faces =>
    set pts : Fin L → Vec3 := fun l => points l - listener with hpts
    have hc : calculateCentroids (fun l => R.mulVec (pts l)) (sortVertices faces) = (calculateCentroids pts (sortVertices faces)).map R.mulVec := by
      simp only [calculateCentroids, List.map_map]
      exact List.map_congr_left fun f _ => turn_centroid R pts f
    have henc : ∀ (fs : List (Face L)) (cs : List Vec3) (b : Vec3), checkListenerInside fs (cs.map R.mulVec) (R.mulVec b) 0 = checkListenerInside fs cs b 0 := by
      intro fs cs b
      unfold checkListenerInside
      rw [List.zip_map_right, List.filter_map, List.map_map]
      congr 1
      refine List.filter_congr fun t _ => ?_
      have e : ((0 : Vec3) - R.mulVec t.2) ⬝ᵥ (R.mulVec b - R.mulVec t.2) = (0 - t.2) ⬝ᵥ (b - t.2) := by
        rw [zero_sub, zero_sub, ← Matrix.mulVec_neg, ← Matrix.mulVec_sub, turn_dot hR]
      simp only [Function.comp, Prod.map, id, e]
    have hn : calculateFaceNormals (fun l => R.mulVec (pts l)) (sortVertices faces) = (calculateFaceNormals pts (sortVertices faces)).map R.mulVec := hnn faces hf
    have ha : calculateFaceAreas (fun l => R.mulVec (pts l)) (sortVertices faces) = calculateFaceAreas pts (sortVertices faces) := by
      refine List.map_congr_left fun f _ => ?_
      unfold areaTriangle
      simp only [← Matrix.mulVec_sub, turn_cross_norm hR]
    have hd : ∀ v : Vec3, (cart2sph ((R.mulVec v) 0) ((R.mulVec v) 1) ((R.mulVec v) 2) false false).2.2 = (cart2sph (v 0) (v 1) (v 2) false false).2.2 := by
      intro v
      have := turn_dot hR v v
      simp only [dotProduct, Fin.sum_univ_three] at this
      show √(_ ^ 2 + _ ^ 2 + _ ^ 2) = √(_ ^ 2 + _ ^ 2 + _ ^ 2)
      simp only [sq]
      exact congrArg _ this
    simp only [bind, Except.bind, pure, Except.pure, Except.map]
    congr 1
    unfold turn
    simp only [hc, turn_barycenter, henc, hn, ha, Matrix.mulVec_zero]
    have hE : checkListenerInside (sortVertices faces) (calculateCentroids (fun l => R.mulVec (pts l)) (sortVertices faces)) (R.mulVec (calculateBarycenter pts)) 0
        = checkListenerInside (sortVertices faces) (calculateCentroids pts (sortVertices faces)) (calculateBarycenter pts) 0 := by rw [hc, henc]
    congr 1
    · funext l
      exact hd (pts l)
    all_goals exact hE

/-- **C138** Building a setup of turned loudspeakers around a turned listener gives the turned setup: the same faces are valid, and distances, areas, centroids and
normals fit.  Qhull is assumed to list the same faces. -/
theorem C138_setup {L : ℕ} (qhull : (L : ℕ) → (Fin L → Vec3) → Py (List (Face L))) (R : Mat3) (hR : R.transpose * R = 1) (hdet : R.det = 1)
    (points : Fin L → Vec3) (listener : Vec3)
    (hq : qhull L (fun l => R.mulVec (points l - listener)) = qhull L fun l => points l - listener) :
    mkHull qhull (fun l => R.mulVec (points l)) (R.mulVec listener) = (mkHull qhull points listener).map (turn R) := by
  refine mkHull_turned qhull R hR points listener hq fun faces _ => ?_
  set pts : Fin L → Vec3 := fun l => points l - listener with hpts
  simp only [calculateFaceNormals, List.map_map]
  refine List.map_congr_left fun f _ => ?_
  simp only [faceNormal, turn_centroid, turn_barycenter, ← Matrix.mulVec_sub, turn_cross hR hdet, ← Matrix.mulVec_add, turn_dot hR, Function.comp]
  rw [if_neg Bool.false_ne_true, if_neg Bool.false_ne_true, apply_ite R.mulVec, Matrix.mulVec_neg]

/-- **C138** `pop_triangles` removes the same faces of the turned setup. -/
theorem C138_pop {L : ℕ} (R : Mat3) (hR : R.transpose * R = 1) (h : Hull L) (normal aperture opening : Option ℝ) (blacklist : Option (List ℕ)) :
    popTriangles (turn R h) normal aperture opening blacklist = turn R (popTriangles h normal aperture opening blacklist) := by
  have ang : ∀ v w c : Vec3, angleBetween (R.mulVec v) (R.mulVec w) (some (R.mulVec c)) = angleBetween v w (some c) := fun v w c => turn_angle hR v w (some c)
  have h1 : ∀ (h : Hull L) o, popNormal (turn R h) o = turn R (popNormal h o) := by
    intro h o
    cases o with
    | none => rfl
    | some l =>
      have : checkNormals (turn R h) l = checkNormals h l := by
        unfold checkNormals turn
        simp only
        rw [List.zip_map, List.zip_map_right, List.filter_map, List.map_map]
        congr 1
        refine List.filter_congr fun t _ => ?_
        simp only [Function.comp, Prod.map, id, ang]
      simp only [popNormal, this]
      rfl
  have h2 : ∀ (h : Hull L) o, popAperture (turn R h) o = turn R (popAperture h o) := by
    intro h o
    cases o with
    | none => rfl
    | some l =>
      have : checkAperture (turn R h) l = checkAperture h l := by
        refine List.filter_congr fun f _ => decide_eq_decide.2 (not_congr ?_)
        unfold apertureBad turn
        simp only [ang]
      simp only [popAperture, this]
      rfl
  have h3 : ∀ (h : Hull L) o, popOpening (turn R h) o = turn R (popOpening h o) := by
    intro h o
    cases o with
    | none => rfl
    | some l =>
      have : checkOpening (turn R h) l = checkOpening h l := by
        refine List.filter_congr fun f _ => decide_eq_decide.2 (not_congr ?_)
        unfold openingBad turn
        simp only [ang]
      simp only [popOpening, this]
      rfl
  have h4 : ∀ (h : Hull L) o, popBlacklist (turn R h) o = turn R (popBlacklist h o) := by
    intro h o
    cases o with
    | none => rfl
    | some l => rfl
  unfold popTriangles
  rw [h1, h2, h3, h4]

/-- **C138** The characteristic order is that of the turned setup, provided no loudspeaker and no centroid of a face is at the position of the listener. -/
theorem C138_order {L : ℕ} (lstsq : Mat3 → Mat3) (hl : LstsqSpec lstsq) (R : Mat3) (hR : R.transpose * R = 1) (h : Hull L) (hp : ∀ l, h.points l ≠ 0)
    (hc : ∀ c ∈ h.centroids, c ≠ 0) : getCharacteristicOrder lstsq (turn R h) = getCharacteristicOrder lstsq h := by
  have hproj : ∀ v : Vec3, v ≠ 0 → Decoder.projectOnSphere (R.mulVec v) = R.mulVec (Decoder.projectOnSphere v) := by
    intro v hv
    have hv' : R.mulVec v ≠ 0 := fun h0 => hv (by
      have := congrArg R.transpose.mulVec h0
      rwa [Matrix.mulVec_mulVec, hR, Matrix.one_mulVec, Matrix.mulVec_zero] at this)
    rw [Verif.Oct.projectOnSphere_eq _ hv', Verif.Oct.projectOnSphere_eq _ hv, turn_norm hR, Matrix.mulVec_smul]
  have hrE : ∀ (p : Fin L → Vec3) (g : Fin L → ℝ), (rE (fun l => R.mulVec (p l)) g).2 = (rE p g).2 := by
    intro p g
    unfold rE
    by_cases hE : ∑ q, g q ^ 2 = 0
    · simp only [hE, if_pos]
    · simp only [if_neg hE]
      have e : (fun c => 1 / (∑ q, g q ^ 2) * ∑ q, g q ^ 2 * (R.mulVec (p q)) c) = R.mulVec fun c => 1 / (∑ q, g q ^ 2) * ∑ q, g q ^ 2 * p q c := by
        funext c
        simp only [Matrix.mulVec, dotProduct, Fin.sum_univ_three, mul_add, Finset.sum_add_distrib, Finset.mul_sum]
        simp only [← Finset.sum_add_distrib]
        exact Finset.sum_congr rfl fun q _ => by ring
      have e2 := turn_dot hR (fun c => 1 / (∑ q, g q ^ 2) * ∑ q, g q ^ 2 * p q c) (fun c => 1 / (∑ q, g q ^ 2) * ∑ q, g q ^ 2 * p q c)
      rw [← e] at e2
      simp only [dotProduct, ← sq] at e2
      exact congrArg _ e2
  have : characteristicAmbisonicOrder lstsq (turn R h) = characteristicAmbisonicOrder lstsq h := by
    unfold characteristicAmbisonicOrder
    have e1 : ({ turn R h with points := fun l => Decoder.projectOnSphere ((turn R h).points l) } : Hull L)
        = turn R { h with points := fun l => Decoder.projectOnSphere (h.points l) } := by
      unfold turn
      simp only
      congr 1
      funext l
      exact hproj _ (hp l)
    have e2 : (turn R h).centroids.map Decoder.projectOnSphere = (h.centroids.map Decoder.projectOnSphere).map R.mulVec := by
      unfold turn
      simp only [List.map_map]
      exact List.map_congr_left fun c hc' => hproj c (hc c hc')
    simp only [e1, e2, C138_vbap lstsq hl R hR]
    have e3 : ∀ gains : List (Fin L → ℝ), gains.map (fun g => (rE (turn R { h with points := fun l => Decoder.projectOnSphere (h.points l) }).points g).2)
        = gains.map fun g => (rE (fun l => Decoder.projectOnSphere (h.points l)) g).2 := fun gains => List.map_congr_left fun g _ => hrE _ g
    congr 1
    funext gains
    have e4 : (fun l => Decoder.projectOnSphere ((turn R h).points l)) = (turn R { h with points := fun l => Decoder.projectOnSphere (h.points l) }).points := by
      rw [← e1]
    rw [e4]
    exact congrArg orderFromMags (e3 gains)
  unfold getCharacteristicOrder
  simp only [this]
  rfl

/-- The spherical harmonics of turned points, all of them away from the origin. -/
theorem turn_shAt {N J : ℕ} (yaw pitch roll : ℝ) (M : Matrix (Fin ((N + 1) ^ 2)) (Fin ((N + 1) ^ 2)) ℝ)
    (hM : ∀ a z a' z', z ∈ Set.Icc 0 π → z' ∈ Set.Icc 0 π → dirVec a' z' = (rotationEuler yaw pitch roll).mulVec (dirVec a z) →
      M.mulVec (shVec N a z) = shVec N a' z') (pts : Fin J → Vec3) (hp : ∀ j, pts j ≠ 0) :
    shAt N (fun j => (rotationEuler yaw pitch roll).mulVec (pts j)) = shAt N pts * M.transpose := by
  have hR : (rotationEuler yaw pitch roll).transpose * rotationEuler yaw pitch roll = 1 := mul_eq_one_comm.1 (euler_orth yaw pitch roll)
  ext j q
  have hp' : (rotationEuler yaw pitch roll).mulVec (pts j) ≠ 0 := fun h0 => hp j (by
    have := congrArg (rotationEuler yaw pitch roll).transpose.mulVec h0
    rwa [Matrix.mulVec_mulVec, hR, Matrix.one_mulVec, Matrix.mulVec_zero] at this)
  have hdir : dirVec (dirOf ((rotationEuler yaw pitch roll).mulVec (pts j))).1 (dirOf ((rotationEuler yaw pitch roll).mulVec (pts j))).2
      = (rotationEuler yaw pitch roll).mulVec (dirVec (dirOf (pts j)).1 (dirOf (pts j)).2) := by
    rw [dirVec_dirOf _ hp', dirVec_dirOf _ (hp j), turn_norm hR]
    have : (fun c => pts j c / norm3 (pts j)) = (1 / norm3 (pts j)) • pts j := by funext c; simp [div_eq_inv_mul]
    rw [this, Matrix.mulVec_smul]
    funext c
    simp [div_eq_inv_mul]
  have := congrFun (hM _ _ _ _ (dirOf_zenith _) (dirOf_zenith _) hdir) q
  show shVec N _ _ q = _
  rw [← this, Matrix.mul_apply]
  show ∑ i, M q i * shVec N _ _ i = _
  exact Finset.sum_congr rfl fun i _ => mul_comm (M q i) (shVec N _ _ i)

/-- The pseudoinverse is unique. -/
theorem pinv_unique {m n : ℕ} {A : Matrix (Fin m) (Fin n) ℝ} {P P' : Matrix (Fin n) (Fin m) ℝ} (h : IsPinv A P) (h' : IsPinv A P') : P = P' := by
  have e1 : A * P = A * P' := by
    have : (A * P' * (A * P)).transpose = A * P * (A * P') := by rw [Matrix.transpose_mul, h.ap, h'.ap]
    rw [← Matrix.mul_assoc, h'.apa, ← Matrix.mul_assoc, h.apa, h.ap] at this
    exact this
  have e2 : P * A = P' * A := by
    have : (P * A * (P' * A)).transpose = P' * A * (P * A) := by rw [Matrix.transpose_mul, h.pa, h'.pa]
    rw [Matrix.mul_assoc, ← Matrix.mul_assoc A, h'.apa, Matrix.mul_assoc P', ← Matrix.mul_assoc A, h.apa, h.pa] at this
    exact this
  calc P = P * A * P := h.pap.symm
    _ = P' * A * P' := by rw [e2, Matrix.mul_assoc, e1, Matrix.mul_assoc]
    _ = P' := h'.pap

theorem pinv_turned {m n : ℕ} {A : Matrix (Fin m) (Fin n) ℝ} {P : Matrix (Fin n) (Fin m) ℝ} (h : IsPinv A P) {M : Matrix (Fin n) (Fin n) ℝ}
    (hM : M.transpose * M = 1) : IsPinv (A * M.transpose) (M * P) := by
  have e : ∀ {k : ℕ} (X : Matrix (Fin n) (Fin k) ℝ), M.transpose * (M * X) = X := fun X => by rw [← Matrix.mul_assoc, hM, Matrix.one_mul]
  have ap : A * M.transpose * (M * P) = A * P := by rw [Matrix.mul_assoc, e]
  refine ⟨?_, ?_, ?_, ?_⟩
  · rw [ap, ← Matrix.mul_assoc, h.apa]
  · rw [Matrix.mul_assoc (M * P), ap, Matrix.mul_assoc, ← Matrix.mul_assoc P, h.pap]
  · rw [ap, h.ap]
  · have : M * P * (A * M.transpose) = M * (P * A) * M.transpose := by simp only [Matrix.mul_assoc]
    rw [this, Matrix.transpose_mul, Matrix.transpose_mul, Matrix.transpose_transpose, h.pa, Matrix.mul_assoc M]

/-- Symmetric positive semidefinite matrices with the same square agree. -/
theorem psd_root_unique {n : ℕ} {P Q : Matrix (Fin n) (Fin n) ℝ} (hP : P.PosSemidef) (hQ : Q.PosSemidef) (h : P * P = Q * Q) : P = Q := by
  have hPs : P.transpose = P := by rw [← Matrix.conjTranspose_eq_transpose_of_trivial]; exact hP.isHermitian
  have hQs : Q.transpose = Q := by rw [← Matrix.conjTranspose_eq_transpose_of_trivial]; exact hQ.isHermitian
  obtain ⟨w, v, he⟩ := Verif.Parsa.exists_eigh (P - Q) (by rw [Matrix.transpose_sub, hPs, hQs])
  have hTv : ∀ i, (P - Q).mulVec (v.col i) = w i • v.col i := by
    intro i
    have e : (P - Q) * v = v * Matrix.diagonal w := by rw [he.decomp, Matrix.mul_assoc, he.orth, Matrix.mul_one]
    funext k
    have := congrFun (congrFun e k) i
    rw [Matrix.mul_diagonal, mul_comm] at this
    exact this
  have hw : w = 0 := by
    funext i
    obtain ⟨x, hx⟩ : ∃ x, x = v.col i := ⟨_, rfl⟩
    have hxx : x ⬝ᵥ x = 1 := by
      have := congrFun (congrFun he.orth i) i
      rw [Matrix.one_apply_eq] at this
      rw [hx]
      exact this
    have hT := hTv i
    rw [← hx] at hT
    have hsum : w i * (x ⬝ᵥ P.mulVec x + x ⬝ᵥ Q.mulVec x) = 0 := by
      have e : P * (P - Q) + (P - Q) * Q = 0 := by rw [Matrix.mul_sub, Matrix.sub_mul, h]; abel
      have e2 := congrArg (fun T => x ⬝ᵥ T.mulVec x) e
      simp only [Matrix.add_mulVec, dotProduct_add, ← Matrix.mulVec_mulVec, hT, Matrix.mulVec_smul, dotProduct_smul, Matrix.zero_mulVec, dotProduct_zero] at e2
      have e3 : x ⬝ᵥ (P - Q).mulVec (Q.mulVec x) = w i * (x ⬝ᵥ Q.mulVec x) := by
        rw [Matrix.dotProduct_mulVec, ← Matrix.mulVec_transpose, Matrix.transpose_sub, hPs, hQs, hT, smul_dotProduct, smul_eq_mul]
      rw [e3] at e2
      simp only [smul_eq_mul] at e2
      linarith
    have hp : 0 ≤ x ⬝ᵥ P.mulVec x := by have := hP.dotProduct_mulVec_nonneg x; simpa using this
    have hq : 0 ≤ x ⬝ᵥ Q.mulVec x := by have := hQ.dotProduct_mulVec_nonneg x; simpa using this
    have hd : x ⬝ᵥ P.mulVec x - x ⬝ᵥ Q.mulVec x = w i := by
      have := congrArg (fun y => x ⬝ᵥ y) hT
      simp only [Matrix.sub_mulVec, dotProduct_sub, dotProduct_smul, hxx, smul_eq_mul, mul_one] at this
      exact this
    rcases mul_eq_zero.1 hsum with h0 | h0
    · exact h0
    · show w i = 0
      linarith
  have := he.decomp
  rw [hw, show (Matrix.diagonal (0 : Fin n → ℝ)) = 0 from Matrix.diagonal_zero, Matrix.mul_zero, Matrix.zero_mul] at this
  exact sub_eq_zero.1 this

/-- The factor `U E V` of a matrix of full column rank does not depend on the choice of its singular value decomposition. -/
theorem svd_unique {m n : ℕ} (hmn : n ≤ m) {A : Matrix (Fin m) (Fin n) ℝ} {U U' : Matrix (Fin m) (Fin m) ℝ} {V V' : Matrix (Fin n) (Fin n) ℝ}
    (hA : LinearIndependent ℝ A.col) (h : IsSvd A U V) (h' : IsSvd A U' V') : U * npEye m n * V = U' * npEye m n * V' := by
  have key : ∀ {U : Matrix (Fin m) (Fin m) ℝ} {V : Matrix (Fin n) (Fin n) ℝ}, IsSvd A U V → ∃ P : Matrix (Fin n) (Fin n) ℝ,
      P.PosSemidef ∧ A = U * npEye m n * V * P ∧ P * P = A.transpose * A := by
    intro U V h
    obtain ⟨σ, hσ, hAe, hpos⟩ := h.diag
    have hV : V * V.transpose = 1 := mul_eq_one_comm.1 h.vh
    set d : Fin n → ℝ := fun j => σ (Fin.castLE hmn j) j with hd
    have hσe : σ = npEye m n * Matrix.diagonal d := by
      ext i j
      rw [Matrix.mul_diagonal, npEye]
      by_cases hij : (i : ℕ) = j
      · have hi : i = Fin.castLE hmn j := Fin.ext hij
        subst hi
        rw [if_pos hij, one_mul]
      · rw [hσ i j hij, if_neg hij, zero_mul]
    have hEE : (npEye m n).transpose * npEye m n = (1 : Matrix (Fin n) (Fin n) ℝ) := by
      ext i j
      rw [Matrix.mul_apply, Finset.sum_eq_single (Fin.castLE hmn i) (fun b _ hb => by
        rw [Matrix.transpose_apply, npEye, if_neg (fun h : (b : ℕ) = i => hb (Fin.ext h)), zero_mul]) (by simp)]
      simp [npEye, Matrix.one_apply, Fin.ext_iff]
    refine ⟨V.transpose * Matrix.diagonal d * V, ?_, ?_, ?_⟩
    · have h1 : (Matrix.diagonal d).PosSemidef := Matrix.PosSemidef.diagonal (fun j => hpos _ _)
      have := h1.conjTranspose_mul_mul_same V
      rwa [Matrix.conjTranspose_eq_transpose_of_trivial] at this
    · rw [hAe, hσe]
      calc U * (npEye m n * Matrix.diagonal d) * V = U * npEye m n * (V * V.transpose) * Matrix.diagonal d * V := by rw [hV]; simp only [Matrix.mul_assoc, Matrix.one_mul]
        _ = _ := by simp only [Matrix.mul_assoc]
    · rw [hAe, hσe]
      simp only [Matrix.transpose_mul, Matrix.diagonal_transpose]
      calc V.transpose * Matrix.diagonal d * V * (V.transpose * Matrix.diagonal d * V)
          = V.transpose * Matrix.diagonal d * (V * V.transpose) * Matrix.diagonal d * V := by simp only [Matrix.mul_assoc]
        _ = V.transpose * Matrix.diagonal d * ((npEye m n).transpose * (U.transpose * U) * npEye m n) * Matrix.diagonal d * V := by rw [hV, h.u, Matrix.mul_one, Matrix.mul_one, hEE, Matrix.mul_one]
        _ = _ := by simp only [Matrix.mul_assoc]
  obtain ⟨P, hP, hAP, hPP⟩ := key h
  obtain ⟨P', hP', hAP', hPP'⟩ := key h'
  have hPe : P = P' := psd_root_unique hP hP' (hPP.trans hPP'.symm)
  subst hPe
  have hinj : Function.Injective P.mulVec := by
    have hA' : Function.Injective A.mulVec := Matrix.mulVec_injective_iff.2 hA
    intro x y hxy
    apply hA'
    show A.mulVec x = A.mulVec y
    have : ∀ z, A.mulVec z = (U * npEye m n * V).mulVec (P.mulVec z) := fun z => by rw [Matrix.mulVec_mulVec, ← hAP]
    rw [this, this, hxy]
  have hu : IsUnit P := Matrix.mulVec_injective_iff_isUnit.1 hinj
  have e : U * npEye m n * V * P = U' * npEye m n * V' * P := hAP.symm.trans hAP'
  obtain ⟨Pi, hPi⟩ := hu.exists_right_inv
  calc U * npEye m n * V = U * npEye m n * V * (P * Pi) := by rw [hPi, Matrix.mul_one]
    _ = U' * npEye m n * V' * (P * Pi) := by rw [← Matrix.mul_assoc, e, Matrix.mul_assoc]
    _ = _ := by rw [hPi, Matrix.mul_one]

theorem turn_order {L : ℕ} {lstsq : Mat3 → Mat3} {h h' : Hull L} {No : Option ℕ} {N : ℕ} (he : getCharacteristicOrder lstsq h' = getCharacteristicOrder lstsq h)
    (hh : h'.charOrder = h.charOrder) (hNo : No = some N ∨ No = none ∧ getCharacteristicOrder lstsq h = .ok N) :
    decodingOrder lstsq h No = .ok N ∧ decodingOrder lstsq h' No = .ok N := by
  have key : ∀ k : Hull L, getCharacteristicOrder lstsq k = .ok N → decodingOrder lstsq k none = .ok N := by
    intro k hk
    unfold decodingOrder
    rcases hc : k.charOrder with _ | _ | n
    · exact hk
    · exact hk
    · unfold getCharacteristicOrder at hk
      rw [hc] at hk
      exact hk
  rcases hNo with rfl | ⟨rfl, hk⟩
  · exact ⟨rfl, rfl⟩
  · exact ⟨key h hk, key h' (he.trans hk)⟩

theorem applyTruncated_turned {L S K N : ℕ} (D : Matrix (Fin L) (Fin ((N + 1) ^ 2)) ℝ) (F F' : Matrix (Fin K) (Fin S) ℝ)
    (M : Matrix (Fin ((N + 1) ^ 2)) (Fin ((N + 1) ^ 2)) ℝ) (hM : M.transpose * M = 1)
    (hF : ∀ hK : (N + 1) ^ 2 ≤ K, F'.submatrix (Fin.castLE hK) id = M * F.submatrix (Fin.castLE hK) id) :
    applyTruncated (D * M.transpose) F' = applyTruncated D F := by
  unfold applyTruncated
  split_ifs with h1 h2
  · congr 1
    rw [hF, Matrix.mul_assoc, ← Matrix.mul_assoc M.transpose, hM, Matrix.one_mul]
  all_goals rfl

/-- When the spherical harmonics at the loudspeakers and the signals are transformed by the same orthogonal matrix, the decoders return the same signals. -/
theorem decoders_turned {L S K N : ℕ} (lstsq : Mat3 → Mat3)
    (pinv : {m n : ℕ} → Matrix (Fin m) (Fin n) ℝ → Matrix (Fin n) (Fin m) ℝ) (hpinv : ∀ {m n : ℕ} (A : Matrix (Fin m) (Fin n) ℝ), IsPinv A (pinv A))
    (svd : {m n : ℕ} → Matrix (Fin m) (Fin n) ℝ → Matrix (Fin m) (Fin m) ℝ × Matrix (Fin n) (Fin n) ℝ)
    (hsvd : ∀ {m n : ℕ} (A : Matrix (Fin m) (Fin n) ℝ), IsSvd A (svd A).1 (svd A).2) (h h' : Hull L) (No : Option ℕ)
    (d1 : decodingOrder lstsq h No = .ok N) (d2 : decodingOrder lstsq h' No = .ok N) (M : Matrix (Fin ((N + 1) ^ 2)) (Fin ((N + 1) ^ 2)) ℝ)
    (ho : M.transpose * M = 1) (hA : shAt N h'.points = shAt N h.points * M.transpose) (F F' : Matrix (Fin K) (Fin S) ℝ)
    (hF : ∀ hK : (N + 1) ^ 2 ≤ K, F'.submatrix (Fin.castLE hK) id = M * F.submatrix (Fin.castLE hK) id) :
    sad lstsq F' h' No = sad lstsq F h No ∧ mad lstsq pinv F' h' No = mad lstsq pinv F h No ∧
      ((N + 1) ^ 2 ≤ L → LinearIndependent ℝ (shAt N h.points).col → epad lstsq svd F' h' No = epad lstsq svd F h No) := by
  have ho' : M * M.transpose = 1 := mul_eq_one_comm.1 ho
  have bind1 : ∀ {α : Type} (x : Py ℕ) (f : ℕ → Py α), x = .ok N → (x >>= f) = f N := fun x f hx => by rw [hx]; rfl
  refine ⟨?_, ?_, ?_⟩
  · unfold sad
    rw [bind1 _ _ d1, bind1 _ _ d2, hA, ← Matrix.smul_mul, ← Matrix.smul_mul]
    exact applyTruncated_turned _ F F' M ho hF
  · unfold mad
    rw [bind1 _ _ d1, bind1 _ _ d2, hA]
    beta_reduce
    rw [pinv_unique (hpinv (shAt N h.points * M.transpose)) (pinv_turned (hpinv (shAt N h.points)) ho), Matrix.transpose_mul,
      ← Matrix.smul_mul]
    exact applyTruncated_turned _ F F' M ho hF
  · intro hL hi
    have hV := hsvd (shAt N h.points)
    have hiM : LinearIndependent ℝ (shAt N h.points * M.transpose).col := by
      rw [← Matrix.mulVec_injective_iff] at hi ⊢
      intro x y hxy
      have hxy' : (shAt N h.points * M.transpose).mulVec x = (shAt N h.points * M.transpose).mulVec y := hxy
      rw [← Matrix.mulVec_mulVec, ← Matrix.mulVec_mulVec] at hxy'
      have := congrArg M.mulVec (hi hxy')
      rwa [Matrix.mulVec_mulVec, Matrix.mulVec_mulVec, ho', Matrix.one_mulVec, Matrix.one_mulVec] at this
    have hS : IsSvd (shAt N h.points * M.transpose) (svd (shAt N h.points)).1 ((svd (shAt N h.points)).2 * M.transpose) := by
      obtain ⟨σ, h1, h2, h3⟩ := hV.diag
      refine ⟨hV.u, ?_, σ, h1, ?_, h3⟩
      · rw [Matrix.transpose_mul, Matrix.transpose_transpose, Matrix.mul_assoc, ← Matrix.mul_assoc _ _ M.transpose, hV.vh, Matrix.one_mul, ho']
      · conv_lhs => rw [h2]
        simp only [Matrix.mul_assoc]
    unfold epad
    rw [bind1 _ _ d1, bind1 _ _ d2]
    simp only [hA]
    rw [svd_unique hL hiM (hsvd (shAt N h.points * M.transpose)) hS, ← Matrix.mul_assoc, ← Matrix.smul_mul, ← Matrix.smul_mul]
    exact applyTruncated_turned _ F F' M ho hF

/-- **C138** Ambisonic decoding: turning the sound field with `rotate_sh` and the loudspeakers with `rotation_euler` by the same angles leaves the loudspeaker
signals of `sad`, `mad` and `epad` unchanged, at an order that is given or that the loudspeakers determine (`epad` for enough loudspeakers in general position,
otherwise its matrix depends on the factors Lapack picks). -/
theorem C138_decoders {L S N : ℕ} (hN : 1 ≤ N) (lstsq : Mat3 → Mat3) (hl : LstsqSpec lstsq)
    (pinv : {m n : ℕ} → Matrix (Fin m) (Fin n) ℝ → Matrix (Fin n) (Fin m) ℝ) (hpinv : ∀ {m n : ℕ} (A : Matrix (Fin m) (Fin n) ℝ), IsPinv A (pinv A))
    (svd : {m n : ℕ} → Matrix (Fin m) (Fin n) ℝ → Matrix (Fin m) (Fin m) ℝ × Matrix (Fin n) (Fin n) ℝ)
    (hsvd : ∀ {m n : ℕ} (A : Matrix (Fin m) (Fin n) ℝ), IsSvd A (svd A).1 (svd A).2) (h : Hull L) (hp : ∀ l, h.points l ≠ 0)
    (hc : ∀ c ∈ h.centroids, c ≠ 0) (No : Option ℕ) (hNo : No = some N ∨ No = none ∧ getCharacteristicOrder lstsq h = .ok N) (yaw pitch roll : ℝ)
    (F : Matrix (Fin S) (Fin ((N + 1) ^ 2)) ℝ) : ∃ F' : Matrix (Fin S) (Fin ((N + 1) ^ 2)) ℝ,
    rotateSh ⟨S, (N + 1) ^ 2, F⟩ yaw pitch roll .real = .ok ⟨S, (N + 1) ^ 2, F'⟩ ∧
      sad lstsq F'.transpose (turn (rotationEuler yaw pitch roll) h) No = sad lstsq F.transpose h No ∧
      mad lstsq pinv F'.transpose (turn (rotationEuler yaw pitch roll) h) No = mad lstsq pinv F.transpose h No ∧
      ((N + 1) ^ 2 ≤ L → LinearIndependent ℝ (shAt N h.points).col →
        epad lstsq svd F'.transpose (turn (rotationEuler yaw pitch roll) h) No = epad lstsq svd F.transpose h No) := by
  obtain ⟨M, hM, hr⟩ := C19_rotation N hN yaw pitch roll
  obtain ⟨M', hM', ho', ho⟩ := C20_orthogonal N hN yaw pitch roll
  rw [hM] at hM'
  have hMM : M = M' := eq_of_heq (NpMat.mk.inj (Except.ok.inj hM')).2.2
  subst hMM
  rw [shRotationMatrix_eq N hN] at hM
  have hRe : blockE (rotationEuler yaw pitch roll) ((N + 1) ^ 2) (N + 1) = M := eq_of_heq (NpMat.mk.inj (Except.ok.inj hM)).2.2
  have hR : (rotationEuler yaw pitch roll).transpose * rotationEuler yaw pitch roll = 1 := mul_eq_one_comm.1 (euler_orth yaw pitch roll)
  obtain ⟨d1, d2⟩ := turn_order (C138_order lstsq hl _ hR h hp hc) rfl hNo
  have hA : shAt N (turn (rotationEuler yaw pitch roll) h).points = shAt N h.points * M.transpose := turn_shAt yaw pitch roll M hr h.points hp
  refine ⟨F * M.transpose, by rw [rotateSh_eq N S hN, hRe], decoders_turned lstsq pinv hpinv svd hsvd h _ No d1 d2 M ho hA _ _ fun hK => ?_⟩
  show (F * M.transpose).transpose = M * F.transpose
  rw [Matrix.transpose_mul, Matrix.transpose_transpose]

/-- `C138_decoders`: eight loudspeakers in the corners of a cube, first order, turned by 1, 1/2 and 1/3. -/
example : ∃ (h : Hull 8) (lstsq : Mat3 → Mat3) (pinv : {m n : ℕ} → Matrix (Fin m) (Fin n) ℝ → Matrix (Fin n) (Fin m) ℝ)
    (svd : {m n : ℕ} → Matrix (Fin m) (Fin n) ℝ → Matrix (Fin m) (Fin m) ℝ × Matrix (Fin n) (Fin n) ℝ), (∀ l, h.points l ≠ 0) ∧
    LinearIndependent ℝ (shAt 1 h.points).col ∧ ∀ F : Matrix (Fin 3) (Fin ((1 + 1) ^ 2)) ℝ, ∃ F' : Matrix (Fin 3) (Fin ((1 + 1) ^ 2)) ℝ,
      rotateSh ⟨3, (1 + 1) ^ 2, F⟩ 1 (1 / 2) (1 / 3) .real = .ok ⟨3, (1 + 1) ^ 2, F'⟩ ∧
      mad lstsq pinv F'.transpose (turn (rotationEuler 1 (1 / 2) (1 / 3)) h) (some 1) = mad lstsq pinv F.transpose h (some 1) ∧
      epad lstsq svd F'.transpose (turn (rotationEuler 1 (1 / 2) (1 / 3)) h) (some 1) = epad lstsq svd F.transpose h (some 1) := by
  obtain ⟨azi, zen, hd⟩ := cube_design
  obtain ⟨lstsq, hl⟩ := exists_lstsq3
  choose P hP using fun (m n : ℕ) (A : Matrix (Fin m) (Fin n) ℝ) => exists_pinv A
  choose U V hUV using fun (m n : ℕ) (A : Matrix (Fin m) (Fin n) ℝ) => exists_svd A
  let h : Hull 8 := {
    points := fun l => dirVec (azi l) (zen l), listener := 0, d := fun _ => 1, a := 1, simplices := [],
    centroids := [], faceAreas := [], faceNormals := [], barycenter := 0, encloses := [], valid := [], invBase := none, charOrder := none }
  have hp : ∀ l, h.points l ≠ 0 := fun l h0 => by
    have := dir_self (azi l) (zen l)
    rw [show dirVec (azi l) (zen l) = 0 from h0] at this
    simp at this
  have hi : LinearIndependent ℝ (shAt 1 h.points).col := design_rank (design_points hd) (by norm_num)
  refine ⟨h, lstsq, fun {m n} A => P m n A, fun {m n} A => (U m n A, V m n A), hp, hi, fun F => ?_⟩
  obtain ⟨F', h1, -, h3, h4⟩ := C138_decoders (N := 1) le_rfl lstsq hl (fun {m n} A => P m n A) (fun A => hP _ _ A) (fun {m n} A => (U m n A, V m n A))
    (fun A => hUV _ _ A) h hp (by simp [h]) (some 1) (.inl rfl) 1 (1 / 2) (1 / 3) F
  exact ⟨F', h1, h3, h4 (by norm_num) hi⟩

/-- No centroid of the octahedron is at its centre. -/
theorem oct_centroids : ∀ c ∈ Oct.hull.centroids, c ≠ 0 := by
  intro c hc h0
  obtain ⟨f, hf, rfl⟩ := List.mem_map.1 (show c ∈ Oct.faces.map (centroid Oct.pts) from hc)
  have hli := Fintype.linearIndependent_iff.1 (Oct.li f hf) (fun _ => 1) (by
    funext d
    have := congrFun h0 d
    simp only [centroid, Fin.sum_univ_three, one_smul, Pi.add_apply, Pi.zero_apply] at this ⊢
    linarith) 0
  exact one_ne_zero hli

/-- `C138_setup`, `C138_pop`, `C138_order`, `C138_nls`: the octahedron turned by 1, 1/2 and 1/3 about the origin. -/
example : ∃ lstsq : Mat3 → Mat3, LstsqSpec lstsq ∧
    mkHull Oct.qhull (fun l => (rotationEuler 1 (1 / 2) (1 / 3)).mulVec (Oct.pts l)) 0 = .ok (turn (rotationEuler 1 (1 / 2) (1 / 3)) Oct.hull) ∧
    (popTriangles (turn (rotationEuler 1 (1 / 2) (1 / 3)) Oct.hull) (some 85) none none (some [0])).valid = (popTriangles Oct.hull (some 85) none none (some [0])).valid ∧
    getCharacteristicOrder lstsq (turn (rotationEuler 1 (1 / 2) (1 / 3)) Oct.hull) = getCharacteristicOrder lstsq Oct.hull ∧
    nearestLoudspeaker (turn (rotationEuler 1 (1 / 2) (1 / 3)) Oct.hull) ((rotationEuler 1 (1 / 2) (1 / 3)).mulVec ![0, 0, 1]) = nearestLoudspeaker Oct.hull ![0, 0, 1] := by
  obtain ⟨lstsq, hl⟩ := exists_lstsq3
  have hR := C04_isRotation 1 (1 / 2) (1 / 3)
  refine ⟨lstsq, hl, ?_, ?_, C138_order lstsq hl _ hR.1 Oct.hull Oct.pts_ne oct_centroids, C138_nls _ hR.1 _ _⟩
  · have := C138_setup Oct.qhull _ hR.1 hR.2.2 Oct.pts 0 rfl
    rw [Oct.mkHull_eq, Matrix.mulVec_zero] at this
    exact this
  · rw [C138_pop _ hR.1]
    rfl

/-- `C138_vbap` for the octahedron turned by a quarter. -/
example : ∃ lstsq : Mat3 → Mat3, LstsqSpec lstsq ∧ ∀ src : List Vec3,
    (vbapHull lstsq 2 (src.map (rotationEuler (π / 2) 0 0).mulVec) none (turn (rotationEuler (π / 2) 0 0) Oct.hull)).1 = (vbapHull lstsq 2 src none Oct.hull).1 := by
  obtain ⟨lstsq, hl⟩ := exists_lstsq3
  exact ⟨lstsq, hl, fun src => by rw [C138_vbap lstsq hl _ (C04_isRotation (π / 2) 0 0).1 2 src none Oct.hull]⟩

end Verif.Props
