import Verif.Props.Angles
import Mathlib.Geometry.Euclidean.Triangle

/-! C137: `angle_between` is the angle at the initial point. -/

namespace Verif.Utils
open Real Matrix

/-- A point of space. -/
noncomputable def pt (v : Fin 3 → ℝ) : EuclideanSpace ℝ (Fin 3) := WithLp.toLp 2 v

theorem pt_sub (v w : Fin 3 → ℝ) : pt (v - w) = pt v - pt w := rfl

theorem inner_pt (v w : Fin 3 → ℝ) : inner ℝ (pt v) (pt w) = v ⬝ᵥ w := by
  simp only [pt, PiLp.inner_apply, RCLike.inner_apply, conj_trivial, dotProduct]
  exact Finset.sum_congr rfl fun i _ => mul_comm _ _

theorem norm_pt (v : Fin 3 → ℝ) : ‖pt v‖ = norm3 v := by
  rw [EuclideanSpace.norm_eq, norm3]
  simp [pt, Fin.sum_univ_three, dotProduct, sq]

theorem pt_inj {v w : Fin 3 → ℝ} (h : pt v = pt w) : v = w := by simpa [pt] using h

theorem angle_pt (v1 v2 : Fin 3 → ℝ) (vi : Option (Fin 3 → ℝ)) :
    angleBetween v1 v2 vi = InnerProductGeometry.angle (pt (v1 - vi.getD 0)) (pt (v2 - vi.getD 0)) := by
  have key : ∀ a b : Fin 3 → ℝ, arccos (clip1 (a ⬝ᵥ b / (norm3 a * norm3 b))) = InnerProductGeometry.angle (pt a) (pt b) := by
    intro a b
    unfold InnerProductGeometry.angle
    rw [← inner_pt, ← norm_pt, ← norm_pt]
    have h := abs_le.1 (abs_real_inner_div_norm_mul_norm_le_one (pt a) (pt b))
    unfold clip1
    rw [max_eq_left h.1, min_eq_left h.2]
  unfold angleBetween
  cases vi with
  | none => simpa using key v1 v2
  | some w => exact key (v1 - w) (v2 - w)

/-- C137: for points different from the initial point (the origin if `None`), `angle_between` is the Euclidean angle at it: between 0 and π, with the law of cosines. -/
theorem C137_angle (v1 v2 : Fin 3 → ℝ) (vi : Option (Fin 3 → ℝ)) (h1 : v1 ≠ vi.getD 0) (h2 : v2 ≠ vi.getD 0) :
    angleBetween v1 v2 vi = EuclideanGeometry.angle (pt v1) (pt (vi.getD 0)) (pt v2) ∧ 0 ≤ angleBetween v1 v2 vi ∧ angleBetween v1 v2 vi ≤ π ∧
      dist (pt v1) (pt v2) ^ 2 = dist (pt v1) (pt (vi.getD 0)) ^ 2 + dist (pt v2) (pt (vi.getD 0)) ^ 2
        - 2 * dist (pt v1) (pt (vi.getD 0)) * dist (pt v2) (pt (vi.getD 0)) * cos (angleBetween v1 v2 vi) := by
  have he : angleBetween v1 v2 vi = EuclideanGeometry.angle (pt v1) (pt (vi.getD 0)) (pt v2) := by
    rw [angle_pt]; rfl
  refine ⟨he, ?_, ?_, ?_⟩
  · rw [he]; exact EuclideanGeometry.angle_nonneg _ _ _
  · rw [he]; exact EuclideanGeometry.angle_le_pi _ _ _
  · rw [he]
    have := EuclideanGeometry.law_cos (pt v1) (pt (vi.getD 0)) (pt v2)
    rw [sq, sq, sq, this]

/-- C137: it does not depend on the order of the points, nor on a common shift, rotation or enlargement of all points. -/
theorem C137_invariant (v1 v2 vi t : Fin 3 → ℝ) (R : Matrix (Fin 3) (Fin 3) ℝ) (hR : R.transpose * R = 1) (s : ℝ) (hs : 0 < s) (h1 : v1 ≠ vi) (h2 : v2 ≠ vi) :
    angleBetween v2 v1 (some vi) = angleBetween v1 v2 (some vi) ∧
    angleBetween (s • R *ᵥ v1 + t) (s • R *ᵥ v2 + t) (some (s • R *ᵥ vi + t)) = angleBetween v1 v2 (some vi) ∧
    angleBetween (v1 - vi) (v2 - vi) none = angleBetween v1 v2 (some vi) := by
  refine ⟨?_, ?_, ?_⟩
  · rw [angle_pt, angle_pt, InnerProductGeometry.angle_comm]
  · rw [angle_pt, angle_pt]
    have hd : ∀ v : Fin 3 → ℝ, s • R *ᵥ v + t - (some (s • R *ᵥ vi + t)).getD 0 = s • R *ᵥ (v - vi) := by
      intro v
      rw [Option.getD_some, Matrix.mulVec_sub, smul_sub]
      abel
    rw [hd, hd]
    have hdot : ∀ a b : Fin 3 → ℝ, inner ℝ (pt (R *ᵥ a)) (pt (R *ᵥ b)) = inner ℝ (pt a) (pt b) := by
      intro a b
      rw [inner_pt, inner_pt, Matrix.dotProduct_mulVec, Matrix.vecMul_mulVec, hR, Matrix.vecMul_one]
    have hnorm : ∀ a : Fin 3 → ℝ, ‖pt (R *ᵥ a)‖ = ‖pt a‖ := by
      intro a
      rw [← sq_eq_sq₀ (norm_nonneg _) (norm_nonneg _), ← real_inner_self_eq_norm_sq, ← real_inner_self_eq_norm_sq, hdot]
    have hsm : ∀ a : Fin 3 → ℝ, pt (s • a) = s • pt a := fun _ => rfl
    rw [hsm, hsm, InnerProductGeometry.angle_smul_left_of_pos _ _ hs, InnerProductGeometry.angle_smul_right_of_pos _ _ hs]
    unfold InnerProductGeometry.angle
    rw [hdot, hnorm, hnorm]
    rfl
  · rw [angle_pt, angle_pt]
    simp

/-- C137: the three angles of a triangle, computed with the vertices as initial points as in `pop_triangles`, sum to π. -/
theorem C137_triangle (a b c : Fin 3 → ℝ) (h1 : b ≠ a) (h2 : c ≠ a) (h3 : c ≠ b) :
    angleBetween a c (some b) + angleBetween b a (some c) + angleBetween c b (some a) = π := by
  have he : ∀ x y z : Fin 3 → ℝ, angleBetween x z (some y) = EuclideanGeometry.angle (pt x) (pt y) (pt z) := by
    intro x y z
    rw [angle_pt]; rfl
  rw [he, he, he]
  exact EuclideanGeometry.angle_add_angle_add_angle_eq_pi (p₁ := pt a) (p₂ := pt b) (pt c) fun h => h1 (pt_inj h)

/-- The angle of a right triangle at its corner. -/
example : angleBetween ![1, 0, 5] ![0, 1, 5] (some ![0, 0, 5]) = π / 2 := by
  obtain ⟨-, -, -, h⟩ := C137_angle ![1, 0, 5] ![0, 1, 5] (some ![0, 0, 5]) (fun h => by simpa using congrFun h 0) (fun h => by simpa using congrFun h 1)
  rw [(C137_angle ![1, 0, 5] ![0, 1, 5] (some ![0, 0, 5]) (fun h => by simpa using congrFun h 0) (fun h => by simpa using congrFun h 1)).1]
  unfold EuclideanGeometry.angle
  rw [InnerProductGeometry.angle, Real.arccos_eq_pi_div_two]
  have : inner ℝ (pt ![1, 0, 5] -ᵥ pt ((some ![0, 0, 5]).getD 0)) (pt ![0, 1, 5] -ᵥ pt ((some ![0, 0, 5]).getD 0)) = 0 := by
    rw [vsub_eq_sub, vsub_eq_sub, ← pt_sub, ← pt_sub, inner_pt]
    simp [dotProduct, Fin.sum_univ_three]
  rw [this, zero_div]

example : angleBetween ![1, 0, 0] ![0, 0, 1] (some ![0, 1, 0]) + angleBetween ![0, 1, 0] ![1, 0, 0] (some ![0, 0, 1])
    + angleBetween ![0, 0, 1] ![0, 1, 0] (some ![1, 0, 0]) = π :=
  C137_triangle _ _ _ (fun h => by simpa using congrFun h 0) (fun h => by simpa using congrFun h 0) (fun h => by simpa using congrFun h 1)

/-- `C137_invariant`: a quarter turn, twice as large. -/
example : angleBetween ![3, 5, 1] ![1, 3, 3] (some ![1, 3, 1]) = angleBetween ![1, -1, 0] ![0, 0, 1] (some ![0, 0, 0]) := by
  have h := (C137_invariant ![1, -1, 0] ![0, 0, 1] ![0, 0, 0] ![1, 3, 1] !![0, -1, 0; 1, 0, 0; 0, 0, 1]
    (by ext i j; fin_cases i <;> fin_cases j <;> simp [Matrix.mul_apply, Fin.sum_univ_three]) 2 (by norm_num)
    (fun h => by simpa using congrFun h 0) (fun h => by simpa using congrFun h 2)).2.1
  rw [← h]
  congr 1
  · ext i; fin_cases i <;> simp [Matrix.mulVec, dotProduct, Fin.sum_univ_three] <;> norm_num
  · ext i; fin_cases i <;> simp [Matrix.mulVec, dotProduct, Fin.sum_univ_three] <;> norm_num
  · congr 1
    ext i; fin_cases i <;> simp [Matrix.mulVec, dotProduct, Fin.sum_univ_three]

end Verif.Utils
