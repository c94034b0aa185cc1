import Verif.Props.RotationGroup
import Mathlib.Analysis.SpecialFunctions.Trigonometric.Angle

/-!
C177: which angles of `utils.rotation_euler`, `sph.sh_rotation_matrix` are the same rotation.
-/

namespace Verif.Utils
open Real Matrix

/-- The entries of `rotation_euler`. -/
theorem euler_entries (y p r : ℝ) : rotationEuler y p r =
    !![cos y * cos p, sin y * cos r + cos y * sin p * sin r, sin y * sin r - cos y * sin p * cos r;
      -(sin y * cos p), cos y * cos r - sin y * sin p * sin r, cos y * sin r + sin y * sin p * cos r;
      sin p, -(cos p * sin r), cos p * cos r] := by
  ext i j
  fin_cases i <;> fin_cases j <;> simp [rotationEuler, rotZ, rotY, rotX, Matrix.mul_apply, Fin.sum_univ_three] <;> ring

theorem angle_of {a b : ℝ} (hc : cos a = cos b) (hs : sin a = sin b) : (a : Real.Angle) = b :=
  Real.Angle.cos_sin_inj hc hs

theorem of_angle {a b : ℝ} (h : (a : Real.Angle) = b) : cos a = cos b ∧ sin a = sin b := by
  rw [← Real.Angle.cos_coe, ← Real.Angle.sin_coe, h, Real.Angle.cos_coe, Real.Angle.sin_coe]
  exact ⟨rfl, rfl⟩

/-- C177: away from a pitch of ±90 degrees two sets of angles are the same rotation exactly if they agree up to full turns, either as they are or
after the flip `(yaw + π, π - pitch, roll + π)`. -/
theorem C177_regular (y p r y' p' r' : ℝ) (hp : cos p ≠ 0) : rotationEuler y p r = rotationEuler y' p' r' ↔
    ((y : Real.Angle) = y' ∧ (p : Real.Angle) = p' ∧ (r : Real.Angle) = r') ∨
      (((y + π : ℝ) : Real.Angle) = y' ∧ ((π - p : ℝ) : Real.Angle) = p' ∧ ((r + π : ℝ) : Real.Angle) = r') := by
  constructor
  · intro h
    rw [euler_entries, euler_entries] at h
    have h00 := congrFun (congrFun h 0) 0
    have h10 := congrFun (congrFun h 1) 0
    have h20 := congrFun (congrFun h 2) 0
    have h21 := congrFun (congrFun h 2) 1
    have h22 := congrFun (congrFun h 2) 2
    simp at h00 h10 h20 h21 h22
    have hsq : (cos p' - cos p) * (cos p' + cos p) = 0 := by
      have e1 := sin_sq_add_cos_sq p
      have e2 := sin_sq_add_cos_sq p'
      rw [h20] at e1
      linear_combination e2 - e1
    rcases mul_eq_zero.1 hsq with hc | hc
    · have hc : cos p' = cos p := by linarith
      rw [hc] at h00 h10 h21 h22
      exact .inl ⟨angle_of (mul_right_cancel₀ hp h00) (mul_right_cancel₀ hp h10), angle_of hc.symm h20,
        angle_of (mul_left_cancel₀ hp h22) (mul_left_cancel₀ hp h21)⟩
    · have hc : cos p' = -cos p := by linarith
      rw [hc] at h00 h10 h21 h22
      refine .inr ⟨angle_of ?_ ?_, angle_of ?_ ?_, angle_of ?_ ?_⟩
      · rw [cos_add_pi]; refine mul_right_cancel₀ hp ?_; linarith
      · rw [sin_add_pi]; refine mul_right_cancel₀ hp ?_; linarith
      · rw [cos_pi_sub, hc]
      · rw [sin_pi_sub, h20]
      · rw [cos_add_pi]; refine mul_left_cancel₀ hp ?_; linarith
      · rw [sin_add_pi]; refine mul_left_cancel₀ hp ?_; linarith
  · rintro (⟨h1, h2, h3⟩ | ⟨h1, h2, h3⟩)
    · obtain ⟨a1, b1⟩ := of_angle h1
      obtain ⟨a2, b2⟩ := of_angle h2
      obtain ⟨a3, b3⟩ := of_angle h3
      rw [euler_entries, euler_entries, a1, b1, a2, b2, a3, b3]
    · obtain ⟨a1, b1⟩ := of_angle h1
      obtain ⟨a2, b2⟩ := of_angle h2
      obtain ⟨a3, b3⟩ := of_angle h3
      rw [euler_entries, euler_entries, ← a1, ← b1, ← a2, ← b2, ← a3, ← b3]
      ext i j
      fin_cases i <;> fin_cases j <;> simp [cos_add_pi, sin_add_pi, cos_pi_sub, sin_pi_sub]

/-- C177: at a pitch of 90 degrees only yaw plus (-90 degrees: minus) … roll matters: the two turn about the same axis. -/
theorem C177_gimbal (y p r y' p' r' : ℝ) :
    (sin p = 1 → sin p' = 1 → (rotationEuler y p r = rotationEuler y' p' r' ↔ ((y + r : ℝ) : Real.Angle) = (y' + r' : ℝ))) ∧
      (sin p = -1 → sin p' = -1 → (rotationEuler y p r = rotationEuler y' p' r' ↔ ((y - r : ℝ) : Real.Angle) = (y' - r' : ℝ))) := by
  have hcos : ∀ q : ℝ, sin q ^ 2 = 1 → cos q = 0 := fun q h => by
    have := sin_sq_add_cos_sq q
    exact pow_eq_zero_iff two_ne_zero |>.1 (by linarith)
  refine ⟨fun h h' => ?_, fun h h' => ?_⟩
  · have c := hcos p (by rw [h]; norm_num)
    have c' := hcos p' (by rw [h']; norm_num)
    rw [euler_entries, euler_entries, h, h', c, c']
    constructor
    · intro e
      have h01 := congrFun (congrFun e 0) 1
      have h11 := congrFun (congrFun e 1) 1
      simp at h01 h11
      refine angle_of ?_ ?_
      · rw [cos_add, cos_add]; linarith
      · rw [sin_add, sin_add]; linarith
    · intro e
      obtain ⟨a, b⟩ := of_angle e
      rw [cos_add, cos_add] at a
      rw [sin_add, sin_add] at b
      ext i j
      fin_cases i <;> fin_cases j <;> simp <;> linarith
  · have c := hcos p (by rw [h]; norm_num)
    have c' := hcos p' (by rw [h']; norm_num)
    rw [euler_entries, euler_entries, h, h', c, c']
    constructor
    · intro e
      have h01 := congrFun (congrFun e 0) 1
      have h11 := congrFun (congrFun e 1) 1
      simp at h01 h11
      refine angle_of ?_ ?_
      · rw [cos_sub, cos_sub]; linarith
      · rw [sin_sub, sin_sub]; linarith
    · intro e
      obtain ⟨a, b⟩ := of_angle e
      rw [cos_sub, cos_sub] at a
      rw [sin_sub, sin_sub] at b
      ext i j
      fin_cases i <;> fin_cases j <;> simp <;> linarith

/-- C177: every rotation has angles with yaw and roll in (-π, π] and pitch from -π/2 to π/2, and unless the pitch is ±90 degrees only these. -/
theorem C177_normal_form (R : Matrix (Fin 3) (Fin 3) ℝ) (hR : IsRotation R) :
    ∃ y ∈ Set.Ioc (-π) π, ∃ p ∈ Set.Icc (-(π / 2)) (π / 2), ∃ r ∈ Set.Ioc (-π) π, R = rotationEuler y p r ∧
      (R 2 0 ^ 2 ≠ 1 → ∀ y' ∈ Set.Ioc (-π) π, ∀ p' ∈ Set.Icc (-(π / 2)) (π / 2), ∀ r' ∈ Set.Ioc (-π) π, R = rotationEuler y' p' r' →
        y' = y ∧ p' = p ∧ r' = r) := by
  have wrap : ∀ a : ℝ, ∃ b ∈ Set.Ioc (-π) π, (a : Real.Angle) = b := fun a =>
    ⟨(a : Real.Angle).toReal, (a : Real.Angle).toReal_mem_Ioc, (Real.Angle.coe_toReal _).symm⟩
  have uniq : ∀ a ∈ Set.Ioc (-π) π, ∀ b ∈ Set.Ioc (-π) π, (a : Real.Angle) = b → a = b := fun a ha b hb h => by
    rw [← Real.Angle.toReal_coe_eq_self_iff_mem_Ioc.2 ha, h, Real.Angle.toReal_coe_eq_self_iff_mem_Ioc.2 hb]
  have half : ∀ a ∈ Set.Icc (-(π / 2)) (π / 2), a ∈ Set.Ioc (-π) π := fun a ha =>
    ⟨by linarith [ha.1, pi_pos], by linarith [ha.2, pi_pos]⟩
  have same : ∀ y p r y' p' r' : ℝ, (y : Real.Angle) = y' → (p : Real.Angle) = p' → (r : Real.Angle) = r' →
      rotationEuler y p r = rotationEuler y' p' r' := fun y p r y' p' r' h1 h2 h3 => by
    obtain ⟨a1, b1⟩ := of_angle h1
    obtain ⟨a2, b2⟩ := of_angle h2
    obtain ⟨a3, b3⟩ := of_angle h3
    rw [euler_entries, euler_entries, a1, b1, a2, b2, a3, b3]
  obtain ⟨y0, p0, r0, e0⟩ := Verif.Props.C151_all_rotations R hR
  have key : ∃ y p r : ℝ, p ∈ Set.Icc (-(π / 2)) (π / 2) ∧ R = rotationEuler y p r := by
    obtain ⟨p1, hp1, hp⟩ := wrap p0
    have e1 : R = rotationEuler y0 p1 r0 := e0.trans (same _ _ _ _ _ _ rfl hp rfl)
    by_cases hin : p1 ∈ Set.Icc (-(π / 2)) (π / 2)
    · exact ⟨y0, p1, r0, hin, e1⟩
    · have hc : cos p1 ≠ 0 := fun h => by
        rcases Real.cos_eq_zero_iff.1 h with ⟨k, hk⟩
        have hpi := pi_pos
        have hk1 : (-1 : ℝ) ≤ k := by
          by_contra hlt
          have : k ≤ -2 := by
            have : k < -1 := by exact_mod_cast not_le.1 hlt
            omega
          have : (k : ℝ) ≤ -2 := by exact_mod_cast this
          have := hp1.1
          rw [hk] at this
          nlinarith
        have hk2 : (k : ℝ) ≤ 0 := by
          by_contra hlt
          have : 1 ≤ k := by
            have : 0 < k := by exact_mod_cast not_le.1 hlt
            omega
          have : (1 : ℝ) ≤ k := by exact_mod_cast this
          have := hp1.2
          rw [hk] at this
          nlinarith
        refine hin ⟨?_, ?_⟩ <;> rw [hk] <;> nlinarith
      by_cases hpos : 0 ≤ p1
      · refine ⟨y0 + π, π - p1, r0 + π, ⟨by linarith [hp1.2, pi_pos], ?_⟩, e1.trans ?_⟩
        · have : π / 2 < p1 := by
            by_contra h
            exact hin ⟨by linarith [pi_pos], not_lt.1 h⟩
          linarith
        · exact (C177_regular _ _ _ _ _ _ hc).2 (.inr ⟨rfl, rfl, rfl⟩)
      · refine ⟨y0 + π, -π - p1, r0 + π, ⟨?_, by linarith [hp1.1, pi_pos]⟩, e1.trans ?_⟩
        · have : p1 < -(π / 2) := by
            by_contra h
            exact hin ⟨not_lt.1 h, by linarith [pi_pos]⟩
          linarith
        · refine (C177_regular _ _ _ _ _ _ hc).2 (.inr ⟨rfl, angle_of ?_ ?_, rfl⟩)
          · rw [cos_pi_sub, show -π - p1 = -(p1 + π) by ring, cos_neg, cos_add_pi]
          · rw [sin_pi_sub, show -π - p1 = -(p1 + π) by ring, sin_neg, sin_add_pi, neg_neg]
  obtain ⟨y1, p, r1, hp, e1⟩ := key
  obtain ⟨y, hy, hy1⟩ := wrap y1
  obtain ⟨r, hr, hr1⟩ := wrap r1
  have e : R = rotationEuler y p r := e1.trans (same _ _ _ _ _ _ hy1 rfl hr1)
  refine ⟨y, hy, p, hp, r, hr, e, fun hn y' hy' p' hp' r' hr' e' => ?_⟩
  have h20 : R 2 0 = sin p := by rw [e, euler_entries]; rfl
  have hcp : cos p ≠ 0 := fun h => hn (by rw [h20]; have := sin_sq_add_cos_sq p; rw [h] at this; linarith)
  rcases (C177_regular y p r y' p' r' hcp).1 (e.symm.trans e') with ⟨a, b, c⟩ | ⟨-, b, -⟩
  · exact ⟨(uniq _ hy _ hy' a).symm, (uniq _ (half _ hp) _ (half _ hp') b).symm, (uniq _ hr _ hr' c).symm⟩
  · exfalso
    have hc := (of_angle b).1
    rw [cos_pi_sub] at hc
    have h1 := cos_nonneg_of_mem_Icc hp
    have h2 := cos_nonneg_of_mem_Icc hp'
    exact hcp (by linarith)

/-- C177: the same holds for `sh_rotation_matrix`, which determines the rotation of space: unless the pitch is ±90 degrees, angles in these ranges
give different matrices. -/
theorem C177_sh (N : ℕ) (hN : 1 ≤ N) (y p r y' p' r' : ℝ) (hp : cos p ≠ 0) :
    Verif.Sph.shRotationMatrix N y p r .real = Verif.Sph.shRotationMatrix N y' p' r' .real ↔
    ((y : Real.Angle) = y' ∧ (p : Real.Angle) = p' ∧ (r : Real.Angle) = r') ∨
      (((y + π : ℝ) : Real.Angle) = y' ∧ ((π - p : ℝ) : Real.Angle) = p' ∧ ((r + π : ℝ) : Real.Angle) = r') :=
  (Verif.Props.C151_same_rotation N hN y p r y' p' r').trans (C177_regular y p r y' p' r' hp)

/-- Turning the head around twice, by half turns of yaw, pitch and roll, is no turn at all. -/
example : rotationEuler π π π = rotationEuler 0 0 0 :=
  ((C177_regular 0 0 0 π π π (by simp)).2 (.inr ⟨by simp, by simp, by simp⟩)).symm

/-- Looking straight up: yaw and roll can be exchanged. -/
example : rotationEuler 1 (π / 2) 0 = rotationEuler 0 (π / 2) 1 :=
  ((C177_gimbal 1 (π / 2) 0 0 (π / 2) 1).1 (by simp) (by simp)).2 (by simp)

/-- The hypotheses of the remaining theorems are met by a yaw of one radian. -/
example : IsRotation (rotationEuler 1 0 0) ∧ (rotationEuler 1 0 0) 2 0 ^ 2 ≠ 1 ∧ cos 0 ≠ 0 :=
  ⟨C04_isRotation _ _ _, by rw [euler_entries]; simp, by simp⟩

end Verif.Utils
