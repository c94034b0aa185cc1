import Verif.Props.Triangles
import Verif.Props.AngleBetween

/-!
C38: the values of face areas, centroids and barycenter, as in Euclidean geometry.
-/

namespace Verif.Props
open Real Verif.Sph Verif.Utils Verif.Decoder Matrix

/-- C38: the area of a face: half the product of the lengths of two edges and the sine of the angle between them. -/
theorem C38_area_value {L : ℕ} (points : Fin L → Vec3) (f : Face L) :
    calculateFaceAreas points [f] = [dist (pt (points (f 1))) (pt (points (f 0))) * dist (pt (points (f 2))) (pt (points (f 0)))
      * sin (EuclideanGeometry.angle (pt (points (f 1))) (pt (points (f 0))) (pt (points (f 2)))) / 2] := by
  have key : ∀ a b : Fin 3 → ℝ, norm3 (crossProduct a b) = ‖pt a‖ * ‖pt b‖ * sin (InnerProductGeometry.angle (pt a) (pt b)) := by
    intro a b
    rw [mul_comm, InnerProductGeometry.sin_angle_mul_norm_mul_norm, inner_pt, inner_pt, inner_pt, ← norm_pt, @norm_eq_sqrt_real_inner, inner_pt, cross_dot_cross,
      dotProduct_comm b a]
  unfold calculateFaceAreas areaTriangle
  rw [List.map_singleton, key, dist_eq_norm, dist_eq_norm, pt_sub, pt_sub, EuclideanGeometry.angle, vsub_eq_sub, vsub_eq_sub]
  congr 1
  ring

/-- C38: the deviations of the vertices from the centroid of their face cancel, and so do those of all points from the barycenter. -/
theorem C38_centres {L : ℕ} (points : Fin L → Vec3) (faces : List (Face L)) :
    (calculateCentroids points faces).length = faces.length ∧
    (∀ (n : ℕ) (f : Face L), faces[n]? = some f → ∃ c, (calculateCentroids points faces)[n]? = some c ∧ ∑ i, (points (f i) - c) = 0) ∧
    ∑ l, (points l - calculateBarycenter points) = 0 := by
  refine ⟨List.length_map _, fun n f hf => ⟨centroid points f, by unfold calculateCentroids; rw [List.getElem?_map, hf]; rfl, ?_⟩, ?_⟩
  · funext c
    simp only [Fin.sum_univ_three, centroid, Pi.add_apply, Pi.sub_apply, Pi.zero_apply]
    ring
  · funext c
    simp only [Finset.sum_apply, Pi.sub_apply, Finset.sum_sub_distrib, calculateBarycenter, Finset.sum_const, Finset.card_univ, Fintype.card_fin, nsmul_eq_mul, Pi.zero_apply]
    rcases Nat.eq_zero_or_pos L with rfl | h
    · simp
    · have : (L : ℝ) ≠ 0 := by positivity
      field_simp
      ring

/-- `C38_area_value`, `C38_centres`: the triangle between the ends of the axes has its centroid at `(1/3, 1/3, 1/3)`. -/
example : ∃ c, (calculateCentroids ![![1, 0, 0], ![0, 1, 0], ![0, 0, 1]] [![0, 1, 2]])[0]? = some c ∧ c 0 = 1 / 3 := by
  obtain ⟨c, h, hc⟩ := (C38_centres ![![1, 0, 0], ![0, 1, 0], ![0, 0, 1]] [![0, 1, 2]]).2.1 0 _ rfl
  refine ⟨c, h, ?_⟩
  have h0 := congrFun hc 0
  simp [Fin.sum_univ_three] at h0
  linarith

end Verif.Props
