import Verif.Proofs.Utils
import Mathlib.Geometry.Euclidean.Angle.Unoriented.TriangleInequality
import Mathlib.Analysis.InnerProductSpace.PiL2

/-! C03: `haversine` is the central angle, and a metric on directions. -/

namespace Verif.Utils
open Real Matrix InnerProductGeometry

/-- Specification: the unit vector of a direction (azimuth from x towards y, zenith from z). -/
noncomputable def unitVec (azi zen : ℝ) : EuclideanSpace ℝ (Fin 3) :=
  !₂[sin zen * cos azi, sin zen * sin azi, cos zen]

theorem inner_unitVec (a1 z1 a2 z2 : ℝ) :
    inner ℝ (unitVec a1 z1) (unitVec a2 z2) = sin z1 * sin z2 * cos (a2 - a1) + cos z1 * cos z2 := by
  simp only [unitVec, PiLp.inner_apply, Fin.sum_univ_three, RCLike.inner_apply, conj_trivial]
  simp
  rw [cos_sub]; ring

theorem norm_unitVec (a z : ℝ) : ‖unitVec a z‖ = 1 := by
  have h : inner ℝ (unitVec a z) (unitVec a z) = (1 : ℝ) := by
    rw [inner_unitVec]; simp; nlinarith [sin_sq_add_cos_sq z]
  rw [real_inner_self_eq_norm_sq] at h
  have := norm_nonneg (unitVec a z)
  nlinarith

theorem two_mul_arcsin_sqrt (d : ℝ) (h1 : -1 ≤ d) (h2 : d ≤ 1) : 2 * arcsin (√((1 - d) / 2)) = arccos d := by
  have hd : cos (arccos d) = d := cos_arccos h1 h2
  set g := arccos d
  have hg0 : 0 ≤ g := arccos_nonneg d
  have hg1 : g ≤ π := arccos_le_pi d
  have hs : (1 - d) / 2 = sin (g / 2) ^ 2 := by
    have : cos g = 1 - 2 * sin (g / 2) ^ 2 := by
      have h := cos_two_mul (g / 2)
      rw [mul_div_cancel₀ g (two_ne_zero)] at h
      rw [h, cos_sq']; ring
    rw [← hd, this]; ring
  have hsn : 0 ≤ sin (g / 2) := sin_nonneg_of_nonneg_of_le_pi (by linarith) (by linarith)
  rw [hs, Real.sqrt_sq hsn, arcsin_sin (by linarith [pi_pos]) (by linarith)]
  ring

/-- C03: `haversine` equals `r` times the geometric angle between the two directions. -/
theorem C03_haversine_eq_angle (a1 z1 a2 z2 r : ℝ) :
    haversine a1 z1 a2 z2 r = r * angle (unitVec a1 z1) (unitVec a2 z2) := by
  have hd := inner_unitVec a1 z1 a2 z2
  have habs := abs_real_inner_le_norm (unitVec a1 z1) (unitVec a2 z2)
  rw [norm_unitVec, norm_unitVec, mul_one, abs_le] at habs
  have hang : angle (unitVec a1 z1) (unitVec a2 z2) = arccos (inner ℝ (unitVec a1 z1) (unitVec a2 z2)) := by
    simp [angle, norm_unitVec]
  rw [hang, ← two_mul_arcsin_sqrt _ habs.1 habs.2, hd]
  simp only [haversine]
  have e : sin ((π / 2 - z2 - (π / 2 - z1)) / 2) ^ 2
      + cos (π / 2 - z1) * cos (π / 2 - z2) * sin ((a2 - a1) / 2) ^ 2
      = (1 - (sin z1 * sin z2 * cos (a2 - a1) + cos z1 * cos z2)) / 2 := by
    have hA : ∀ t : ℝ, sin (t / 2) ^ 2 = (1 - cos t) / 2 := by
      intro t
      have h := cos_two_mul (t / 2)
      rw [mul_div_cancel₀ t (two_ne_zero)] at h
      rw [h, cos_sq']; ring
    rw [hA, hA, cos_pi_div_two_sub, cos_pi_div_two_sub,
      show π / 2 - z2 - (π / 2 - z1) = z1 - z2 by ring, cos_sub z1 z2]
    ring
  rw [e]; ring

/-- C03: it is also what `angle_between` returns for the Cartesian coordinates. -/
theorem C03_haversine_eq_angleBetween (a1 z1 a2 z2 : ℝ) :
    haversine a1 z1 a2 z2
      = angleBetween ![(dir2cart a1 z1).1, (dir2cart a1 z1).2.1, (dir2cart a1 z1).2.2]
          ![(dir2cart a2 z2).1, (dir2cart a2 z2).2.1, (dir2cart a2 z2).2.2] := by
  rw [C03_haversine_eq_angle, one_mul]
  have habs := abs_real_inner_le_norm (unitVec a1 z1) (unitVec a2 z2)
  rw [norm_unitVec, norm_unitVec, mul_one, abs_le, inner_unitVec] at habs
  have hn : ∀ a z : ℝ, norm3 ![(dir2cart a z).1, (dir2cart a z).2.1, (dir2cart a z).2.2] = 1 := by
    intro a z
    unfold norm3
    rw [Real.sqrt_eq_one]
    simp [dir2cart]
    nlinarith [sin_sq_add_cos_sq a, sin_sq_add_cos_sq z]
  simp only [angleBetween, hn, mul_one, div_one]
  have hdot : ![(dir2cart a1 z1).1, (dir2cart a1 z1).2.1, (dir2cart a1 z1).2.2] ⬝ᵥ
      ![(dir2cart a2 z2).1, (dir2cart a2 z2).2.1, (dir2cart a2 z2).2.2]
      = sin z1 * sin z2 * cos (a2 - a1) + cos z1 * cos z2 := by
    simp [dir2cart, cos_sub]; ring
  rw [hdot, clip1, max_eq_left habs.1, min_eq_left habs.2]
  simp [angle, norm_unitVec, inner_unitVec]

/-- C03: the central angle is a metric on directions: range, symmetry, triangle inequality, and it vanishes exactly for
equal directions. -/
theorem C03_metric (a1 z1 a2 z2 a3 z3 : ℝ) :
    haversine a1 z1 a2 z2 ∈ Set.Icc 0 π ∧
    haversine a1 z1 a2 z2 = haversine a2 z2 a1 z1 ∧
    haversine a1 z1 a3 z3 ≤ haversine a1 z1 a2 z2 + haversine a2 z2 a3 z3 ∧
    (haversine a1 z1 a2 z2 = 0 ↔ dir2cart a1 z1 = dir2cart a2 z2) := by
  simp only [C03_haversine_eq_angle, one_mul]
  refine ⟨⟨angle_nonneg _ _, angle_le_pi _ _⟩, angle_comm _ _, angle_le_angle_add_angle _ _ _, ?_⟩
  have hne : ∀ a z, unitVec a z ≠ 0 := fun a z h => by
    have := norm_unitVec a z; rw [h] at this; simp at this
  constructor
  · intro h
    have h1 := (inner_eq_mul_norm_iff_angle_eq_zero (hne a1 z1) (hne a2 z2)).2 h
    rw [norm_unitVec, norm_unitVec, mul_one] at h1
    have h2 := (inner_eq_one_iff_of_norm_eq_one (𝕜 := ℝ) (norm_unitVec a1 z1) (norm_unitVec a2 z2)).1 h1
    have c0 := congrArg (fun v => v 0) h2
    have c1 := congrArg (fun v => v 1) h2
    have c2 := congrArg (fun v => v 2) h2
    simp [unitVec] at c0 c1 c2
    simp only [dir2cart, Prod.mk.injEq]
    refine ⟨by linarith, by linarith, c2⟩
  · intro h
    simp only [dir2cart, Prod.mk.injEq] at h
    have : unitVec a1 z1 = unitVec a2 z2 := by
      simp only [unitVec]
      rw [mul_comm (sin z1) (cos a1), mul_comm (sin z1) (sin a1), mul_comm (sin z2) (cos a2),
        mul_comm (sin z2) (sin a2), h.1, h.2.1, h.2.2]
    rw [this, angle_self (hne _ _)]

/-- A quarter turn on the horizon is a right angle: the statements above are about a non-trivial quantity. -/
example : haversine 0 (π / 2) (π / 2) (π / 2) = π / 2 := by
  rw [C03_haversine_eq_angle, one_mul]
  simp [angle, norm_unitVec, inner_unitVec]

end Verif.Utils
