import Verif.Props.Triangles
import Verif.Proofs.Octahedron

/-! C98: which faces a new `LoudspeakerSetup` considers as enclosing the listener.  C99: vertex normals. -/

namespace Verif.Props
open Real Verif.Sph Verif.Utils Verif.Decoder

/-! ### C98 -/

theorem mem_listenerInside {L : ℕ} (pts : Fin L → Vec3) (faces : List (Face L)) (b l : Vec3) (f : Face L) :
    f ∈ checkListenerInside faces (calculateCentroids pts faces) b l ↔ f ∈ faces ∧ 0 ≤ (l - centroid pts f) ⬝ᵥ (b - centroid pts f) := by
  unfold checkListenerInside calculateCentroids
  have hz : faces.zip (faces.map (centroid pts)) = faces.map fun f => (f, centroid pts f) := by
    rw [List.zip_map_right, ← List.map_id faces, List.zip_map']
    simp
  rw [hz]
  simp only [List.mem_map, List.mem_filter, decide_eq_true_eq, not_lt]
  constructor
  · rintro ⟨t, ⟨⟨g, hg, rfl⟩, h⟩, rfl⟩
    exact ⟨hg, h⟩
  · rintro ⟨hg, h⟩
    exact ⟨(f, centroid pts f), ⟨⟨f, hg, rfl⟩, h⟩, rfl⟩

theorem mkHull_ok {L : ℕ} (qhull : (L : ℕ) → (Fin L → Vec3) → Py (List (Face L))) (points : Fin L → Vec3) (listener : Vec3) (h : Hull L)
    (hh : mkHull qhull points listener = .ok h) : ∃ faces, qhull L (fun l => points l - listener) = .ok faces ∧ h.simplices = sortVertices faces ∧
      h.valid = checkListenerInside (sortVertices faces) (calculateCentroids (fun l => points l - listener) (sortVertices faces))
        (calculateBarycenter fun l => points l - listener) 0 ∧ h.points = fun l => points l - listener := by
  unfold mkHull at hh
  simp only at hh
  rcases hq : qhull L (fun l => points l - listener) with e | faces
  · rw [hq] at hh
    cases hh
  · rw [hq] at hh
    have : h = _ := (Except.ok.inj hh).symm
    exact ⟨faces, rfl, by rw [this], by rw [this], by rw [this]⟩

/-- The centre of the vertices of a face, and of all loudspeakers. -/
noncomputable def faceCentre {L : ℕ} (points : Fin L → Vec3) (f : Face L) : Vec3 := (1 / 3 : ℝ) • (points (f 0) + points (f 1) + points (f 2))

/-- The mean of all loudspeaker positions. -/
noncomputable def meanPoint {L : ℕ} (points : Fin L → Vec3) : Vec3 := (1 / L : ℝ) • ∑ l, points l

theorem centroid_shift {L : ℕ} (points : Fin L → Vec3) (p : Vec3) (f : Face L) : centroid (fun l => points l - p) f = faceCentre points f - p := by
  funext c
  simp only [centroid, faceCentre, Fin.sum_univ_three, Pi.sub_apply, Pi.smul_apply, Pi.add_apply, smul_eq_mul]
  ring

theorem barycenter_shift {L : ℕ} (hL : 0 < L) (points : Fin L → Vec3) (p : Vec3) : calculateBarycenter (fun l => points l - p) = meanPoint points - p := by
  funext c
  have : (L : ℝ) ≠ 0 := by positivity
  simp only [calculateBarycenter, meanPoint, Pi.sub_apply, Pi.smul_apply, Finset.sum_apply, smul_eq_mul, Finset.sum_sub_distrib, Finset.sum_const, Finset.card_univ, Fintype.card_fin, nsmul_eq_mul]
  field_simp

theorem norm3_le_two (u v : Vec3) : norm3 u ≤ 2 * norm3 v ↔ u ⬝ᵥ u ≤ 4 * (v ⬝ᵥ v) := by
  have hv : (0 : ℝ) ≤ v ⬝ᵥ v := Finset.sum_nonneg fun i _ => mul_self_nonneg _
  unfold norm3
  have h2 : (2 : ℝ) * √(v ⬝ᵥ v) = √(4 * (v ⬝ᵥ v)) := by
    rw [Real.sqrt_mul (by norm_num), show (4 : ℝ) = 2 ^ 2 by norm_num, Real.sqrt_sq (by norm_num)]
  rw [h2, Real.sqrt_le_sqrt_iff (by positivity)]

/-- **C98** (what is checked): the valid faces of a new setup are those faces of the triangulation whose centre does not lie strictly inside the ball that has
the listener and the mean of all loudspeakers as antipodal points. -/
theorem C98_ball {L : ℕ} (hL : 0 < L) (qhull : (L : ℕ) → (Fin L → Vec3) → Py (List (Face L))) (points : Fin L → Vec3) (listener : Vec3) (h : Hull L)
    (hh : mkHull qhull points listener = .ok h) (f : Face L) :
    f ∈ h.valid ↔ f ∈ h.simplices ∧ norm3 (listener - meanPoint points) ≤ 2 * norm3 (faceCentre points f - (1 / 2 : ℝ) • (listener + meanPoint points)) := by
  obtain ⟨faces, -, h1, h2, -⟩ := mkHull_ok qhull points listener h hh
  rw [h2, mem_listenerInside, h1, centroid_shift, barycenter_shift hL]
  refine and_congr_right fun _ => ?_
  set c := faceCentre points f
  set b := meanPoint points
  rw [norm3_le_two]
  simp only [dotProduct, Fin.sum_univ_three, Pi.sub_apply, Pi.smul_apply, Pi.add_apply, Pi.zero_apply, smul_eq_mul]
  constructor <;> intro h <;> nlinarith

/-- **C98**, the part that holds: if the listener is no farther from the mean of the loudspeakers than every face centre is, then every face is valid; in
particular for a listener at that mean.  Missing: other listeners inside the hull, see `C98_inside_fails`. -/
theorem C98_central_partial {L : ℕ} (hL : 0 < L) (qhull : (L : ℕ) → (Fin L → Vec3) → Py (List (Face L))) (points : Fin L → Vec3) (listener : Vec3) (h : Hull L)
    (hh : mkHull qhull points listener = .ok h) (hc : ∀ f ∈ h.simplices, norm3 (listener - meanPoint points) ≤ norm3 (faceCentre points f - meanPoint points)) :
    ∀ f, f ∈ h.valid ↔ f ∈ h.simplices := by
  intro f
  rw [C98_ball hL qhull points listener h hh f]
  refine ⟨fun h => h.1, fun hf => ⟨hf, ?_⟩⟩
  have h1 := hc f hf
  set c := faceCentre points f
  set b := meanPoint points
  unfold norm3 at h1
  rw [Real.sqrt_le_sqrt_iff (show (0:ℝ) ≤ (c - b) ⬝ᵥ (c - b) from Finset.sum_nonneg fun i _ => mul_self_nonneg _)] at h1
  rw [norm3_le_two]
  simp only [dotProduct, Fin.sum_univ_three, Pi.sub_apply, Pi.smul_apply, Pi.add_apply, smul_eq_mul] at h1 ⊢
  nlinarith [sq_nonneg (listener 0 - c 0), sq_nonneg (listener 1 - c 1), sq_nonneg (listener 2 - c 2)]

/-- Loudspeakers in front and behind at distance `a`, left, right, above and below at distance one. -/
def longOct (a : ℝ) : Fin 6 → Vec3 := ![![a, 0, 0], ![-a, 0, 0], ![0, 1, 0], ![0, -1, 0], ![0, 0, 1], ![0, 0, -1]]

theorem longOct_mean (a : ℝ) : meanPoint (longOct a) = 0 := by
  unfold meanPoint
  rw [Fin.sum_univ_six]
  funext c
  fin_cases c <;> simp [longOct]

theorem longOct_hull (a : ℝ) (listener : Vec3) : ∃ h, mkHull Oct.qhull (longOct a) listener = .ok h ∧ h.simplices = Oct.faces := by
  unfold mkHull Oct.qhull
  rw [dif_pos rfl]
  refine ⟨_, rfl, Oct.sort_raw⟩

/-- The listener is a convex combination, with positive weights, of the loudspeakers. -/
def HullInterior {L : ℕ} (points : Fin L → Vec3) (p : Vec3) : Prop := ∃ w : Fin L → ℝ, (∀ l, 0 < w l) ∧ ∑ l, w l = 1 ∧ ∑ l, w l • points l = p

/-- **C98** fails: a listener inside the hull but away from the centre of a long layout (front and back at distance 10) loses all four faces in front, so that
panning to the front finds no face. -/
theorem C98_inside_fails : ∃ h, mkHull Oct.qhull (longOct 10) ![6, 0, 0] = .ok h ∧ HullInterior (longOct 10) ![6, 0, 0] ∧
    ∀ f ∈ h.simplices, f 0 = 0 → f ∉ h.valid := by
  obtain ⟨h, h1, h2⟩ := longOct_hull 10 ![6, 0, 0]
  refine ⟨h, h1, ⟨![3 / 4, 3 / 20, 1 / 40, 1 / 40, 1 / 40, 1 / 40], ?_, ?_, ?_⟩, ?_⟩
  · intro l; fin_cases l <;> norm_num
  · rw [Fin.sum_univ_six]; simp; norm_num
  · rw [Fin.sum_univ_six]
    funext c
    fin_cases c <;> (simp [longOct]; try norm_num)
  · intro f hf hf0 hv
    obtain ⟨-, hd⟩ := (C98_ball (by norm_num) Oct.qhull _ _ h h1 f).mp hv
    rw [h2] at hf
    rw [longOct_mean] at hd
    rw [norm3_le_two] at hd
    simp only [Oct.faces, List.mem_cons, List.not_mem_nil, or_false] at hf
    rcases hf with rfl | rfl | rfl | rfl | rfl | rfl | rfl | rfl
    all_goals first
      | exact absurd hf0 (by decide)
      | (simp [faceCentre, longOct, dotProduct, Fin.sum_univ_three] at hd; norm_num at hd)

/-- **C98** fails the other way round: a listener outside the hull for whom every face is valid. -/
theorem C98_outside_fails : ∃ h, mkHull Oct.qhull (longOct 10) ![0, 5, 0] = .ok h ∧
    (∀ l, longOct 10 l 1 < (![0, 5, 0] : Vec3) 1) ∧ ∀ f, f ∈ h.valid ↔ f ∈ h.simplices := by
  obtain ⟨h, h1, h2⟩ := longOct_hull 10 ![0, 5, 0]
  refine ⟨h, h1, ?_, ?_⟩
  · intro l; fin_cases l <;> norm_num [longOct]
  · intro f
    rw [C98_ball (by norm_num) Oct.qhull _ _ h h1 f]
    refine ⟨fun h => h.1, fun hf => ⟨hf, ?_⟩⟩
    rw [h2] at hf
    rw [longOct_mean]
    rw [norm3_le_two]
    simp only [Oct.faces, List.mem_cons, List.not_mem_nil, or_false] at hf
    rcases hf with rfl | rfl | rfl | rfl | rfl | rfl | rfl | rfl <;> simp [faceCentre, longOct, dotProduct, Fin.sum_univ_three] <;> norm_num

/-- The central listener of the long layout satisfies the hypothesis of `C98_central_partial`. -/
example : ∃ h, mkHull Oct.qhull (longOct 10) 0 = .ok h ∧ ∀ f ∈ h.simplices, norm3 (0 - meanPoint (longOct 10)) ≤ norm3 (faceCentre (longOct 10) f - meanPoint (longOct 10)) := by
  obtain ⟨h, h1, -⟩ := longOct_hull 10 0
  refine ⟨h, h1, fun f _ => ?_⟩
  rw [longOct_mean, sub_zero]
  have : norm3 0 = 0 := by simp [norm3]
  rw [this]
  exact Real.sqrt_nonneg _

/-! ### C99 -/

/-- Every normal of a face that is not in one plane with the barycenter points away from the barycenter, measured at any vertex of the face. -/
theorem normal_out {L : ℕ} (points : Fin L → Vec3) (b : Vec3) (eps : ℝ) (f : Face L) (i : Fin 3)
    (hd : eps < |crossProduct (points (f 1) - points (f 0)) (points (f 2) - points (f 0)) ⬝ᵥ (b - points (f 0))|) :
    eps < faceNormal points b eps false f ⬝ᵥ (points (f i) - b) := by
  unfold faceNormal
  simp only [Bool.false_eq_true, if_false, add_sub_cancel_left]
  set v := crossProduct (points (f 1) - points (f 0)) (points (f 2) - points (f 0)) with hv
  have h1 : v ⬝ᵥ (points (f 1) - points (f 0)) = 0 := by rw [hv, dotProduct_comm]; exact dot_self_cross _ _
  have h2 : v ⬝ᵥ (points (f 2) - points (f 0)) = 0 := by rw [hv, dotProduct_comm]; exact dot_cross_self _ _
  have hi : v ⬝ᵥ (points (f i) - b) = - (v ⬝ᵥ (b - points (f 0))) := by
    have : v ⬝ᵥ (points (f i) - points (f 0)) = 0 := by
      fin_cases i
      · simp
      · exact h1
      · exact h2
    rw [show points (f i) - b = (points (f i) - points (f 0)) - (b - points (f 0)) by abel, dotProduct_sub, this, zero_sub]
  have hc : v ⬝ᵥ (b - centroid points f) = v ⬝ᵥ (b - points (f 0)) := by
    have : b - centroid points f = (b - points (f 0)) - (1 / 3 : ℝ) • (points (f 1) - points (f 0)) - (1 / 3 : ℝ) • (points (f 2) - points (f 0)) := by
      funext c
      simp only [centroid, Fin.sum_univ_three, Pi.sub_apply, Pi.smul_apply, smul_eq_mul]
      ring
    rw [this, dotProduct_sub, dotProduct_sub, dotProduct_smul, dotProduct_smul, h1, h2]
    simp
  rw [hc]
  by_cases h : v ⬝ᵥ (b - points (f 0)) > eps
  · rw [if_pos h, neg_dotProduct, hi]
    linarith
  · rw [if_neg h, hi]
    rcases lt_abs.mp hd with h' | h'
    · exact absurd h' h
    · linarith

/-- **C99**: the normal at a vertex of a triangulation without faces coplanar with the barycenter points away from the barycenter: its dot product with the
direction from the barycenter to the vertex is positive.  With `normalize` it has unit length and still points outwards. -/
theorem C99_outward {L : ℕ} (points : Fin L → Vec3) (faces : List (Face L)) (eps : ℝ) (heps : 0 ≤ eps) (vertices : List (Fin L)) (p : Fin L) (hp : p ∈ vertices)
    (hface : ∃ f ∈ faces, ∃ i, f i = p)
    (hd : ∀ f ∈ faces, eps < |crossProduct (points (f 1) - points (f 0)) (points (f 2) - points (f 0)) ⬝ᵥ (calculateBarycenter points - points (f 0))|) :
    let n := calculateVertexNormals faces (calculateFaceAreas points faces) (calculateFaceNormals points faces eps false) vertices
    0 < n false p ⬝ᵥ (points p - calculateBarycenter points) ∧ 0 < n true p ⬝ᵥ (points p - calculateBarycenter points) ∧ norm3 (n true p) = 1 := by
  intro n
  set b := calculateBarycenter points with hb
  have hz : faces.zip ((calculateFaceAreas points faces).zip (calculateFaceNormals points faces eps false)) =
      faces.map fun f => (f, (areaTriangle (points (f 0)) (points (f 1)) (points (f 2)), faceNormal points b eps false f)) := by
    unfold calculateFaceAreas calculateFaceNormals
    rw [List.zip_map', List.zip_map_right, ← hb]
    have hs : ∀ l : List (Face L), l.zip l = l.map fun f => (f, f) := fun l => by
      induction l with
      | nil => rfl
      | cons a t ih => simp [ih]
    rw [hs, List.map_map]
    rfl
  set w : List Vec3 := ((faces.filter fun f => decide (∃ i, f i = p)).map fun f => areaTriangle (points (f 0)) (points (f 1)) (points (f 2)) • faceNormal points b eps false f) with hw
  have hn : n false p = w.sum := by
    simp only [n, calculateVertexNormals, if_pos hp, Bool.false_eq_true, if_false]
    rw [hz, List.filter_map, List.map_map]
    rfl
  have hn' : n true p = (1 / norm3 w.sum) • w.sum := by
    simp only [n, calculateVertexNormals, if_pos hp, if_true]
    rw [hz, List.filter_map, List.map_map]
    rfl
  have hpos : ∀ v ∈ w, 0 < v ⬝ᵥ (points p - b) := by
    intro v hv
    rw [hw] at hv
    obtain ⟨f, hf, rfl⟩ := List.mem_map.mp hv
    obtain ⟨hf1, hf2⟩ := List.mem_filter.mp hf
    obtain ⟨i, hi⟩ := of_decide_eq_true hf2
    have h1 := normal_out points b eps f i (hd f hf1)
    rw [hi] at h1
    rw [smul_dotProduct, smul_eq_mul]
    refine mul_pos ?_ (lt_of_le_of_lt heps h1)
    unfold areaTriangle
    have h2 : crossProduct (points (f 1) - points (f 0)) (points (f 2) - points (f 0)) ≠ 0 := by
      intro h0
      have := hd f hf1
      rw [h0] at this
      simp at this
      linarith
    have h3 : 0 < norm3 (crossProduct (points (f 1) - points (f 0)) (points (f 2) - points (f 0))) := by
      unfold norm3
      rw [Real.sqrt_pos]
      have := dotProduct_self_eq_zero (v := crossProduct (points (f 1) - points (f 0)) (points (f 2) - points (f 0)))
      have h0 : 0 ≤ crossProduct (points (f 1) - points (f 0)) (points (f 2) - points (f 0)) ⬝ᵥ crossProduct (points (f 1) - points (f 0)) (points (f 2) - points (f 0)) :=
        Finset.sum_nonneg fun i _ => mul_self_nonneg _
      exact lt_of_le_of_ne h0 fun h => h2 (this.mp h.symm)
    positivity
  have hsum : ∀ (l : List Vec3) (d : Vec3), l ≠ [] → (∀ v ∈ l, 0 < v ⬝ᵥ d) → 0 < l.sum ⬝ᵥ d := by
    intro l d
    induction l with
    | nil => intro h; exact absurd rfl h
    | cons a t ih =>
      intro _ h
      rw [List.sum_cons, add_dotProduct]
      by_cases ht : t = []
      · rw [ht]; simpa using h a (by simp)
      · exact add_pos (h a (by simp)) (ih ht fun v hv => h v (by simp [hv]))
  have hne : w ≠ [] := by
    obtain ⟨f, hf, i, hi⟩ := hface
    intro h0
    have : areaTriangle (points (f 0)) (points (f 1)) (points (f 2)) • faceNormal points b eps false f ∈ w :=
      List.mem_map.mpr ⟨f, List.mem_filter.mpr ⟨hf, decide_eq_true ⟨i, hi⟩⟩, rfl⟩
    rw [h0] at this
    simp at this
  have h1 := hsum w _ hne hpos
  have hwn : 0 < norm3 w.sum := by
    unfold norm3
    rw [Real.sqrt_pos]
    have h0 : 0 ≤ w.sum ⬝ᵥ w.sum := Finset.sum_nonneg fun i _ => mul_self_nonneg _
    refine lt_of_le_of_ne h0 fun h => ?_
    rw [dotProduct_self_eq_zero.mp h.symm] at h1
    simp at h1
  refine ⟨by rw [hn]; exact h1, ?_, ?_⟩
  · rw [hn', smul_dotProduct, smul_eq_mul]
    positivity
  · rw [hn']
    unfold norm3 at hwn ⊢
    rw [smul_dotProduct, dotProduct_smul, smul_eq_mul, smul_eq_mul]
    set q := w.sum ⬝ᵥ w.sum
    have hq : 0 < q := Real.sqrt_pos.mp hwn
    rw [show 1 / √q * (1 / √q * q) = 1 by rw [← mul_assoc, div_mul_div_comm, Real.mul_self_sqrt hq.le]; field_simp]
    exact Real.sqrt_one

/-- **C99**: points that are not vertices of the hull get no normal. -/
theorem C99_inner {L : ℕ} (faces : List (Face L)) (areas : List ℝ) (normals : List Vec3) (vertices : List (Fin L)) (p : Fin L) (hp : p ∉ vertices) (nrm : Bool) :
    calculateVertexNormals faces areas normals vertices nrm p = 0 := by
  unfold calculateVertexNormals
  rw [if_neg hp]

/-- The octahedron. -/
example : ∀ f ∈ Oct.faces, (10e-6 : ℝ) < |crossProduct (Oct.pts (f 1) - Oct.pts (f 0)) (Oct.pts (f 2) - Oct.pts (f 0)) ⬝ᵥ (calculateBarycenter Oct.pts - Oct.pts (f 0))| := by
  intro f hf
  rw [Oct.barycenter_pts]
  simp only [Oct.faces, List.mem_cons, List.not_mem_nil, or_false] at hf
  rcases hf with rfl | rfl | rfl | rfl | rfl | rfl | rfl | rfl <;>
    (simp [Oct.pts, crossProduct, dotProduct, Fin.sum_univ_three]; try norm_num)

/-- `C99_outward` on the octahedron. -/
example : let n := calculateVertexNormals Oct.faces (calculateFaceAreas Oct.pts Oct.faces) (calculateFaceNormals Oct.pts Oct.faces 10e-6 false) [0, 1]
    norm3 (n true 0) = 1 := by
  intro n
  refine (C99_outward Oct.pts Oct.faces 10e-6 (by norm_num) [0, 1] 0 (by simp) ⟨![0, 2, 4], by simp [Oct.faces], 0, rfl⟩ ?_).2.2
  intro f hf
  rw [Oct.barycenter_pts]
  simp only [Oct.faces, List.mem_cons, List.not_mem_nil, or_false] at hf
  rcases hf with rfl | rfl | rfl | rfl | rfl | rfl | rfl | rfl <;>
    (simp [Oct.pts, crossProduct, dotProduct, Fin.sum_univ_three]; try norm_num)

/-- `C98_ball` on the long octahedron with a listener off the centre. -/
example : ∃ h, mkHull Oct.qhull (longOct 10) ![6, 0, 0] = .ok h ∧ ∀ f, f ∈ h.valid ↔ f ∈ h.simplices ∧
    norm3 (![6, 0, 0] - meanPoint (longOct 10)) ≤ 2 * norm3 (faceCentre (longOct 10) f - (1 / 2 : ℝ) • (![6, 0, 0] + meanPoint (longOct 10))) := by
  obtain ⟨h, h1, -⟩ := longOct_hull 10 ![6, 0, 0]
  exact ⟨h, h1, C98_ball (by norm_num) Oct.qhull _ _ h h1⟩

end Verif.Props
