import Verif.Proofs.Utils
import Mathlib.Analysis.Real.Pi.Bounds

/-! C01, C02, C03: coordinates. -/

namespace Verif.Utils
open Real Matrix

/-- C01: `sph2cart(*cart2sph(x, y, z, …)) == (x, y, z)` for every point but the origin; with `steady_zen` the radius has
to reach the clipping value `10e-15`. -/
theorem C01_sph2cart_cart2sph (x y z : ℝ) (pos steady : Bool) (h0 : (x, y, z) ≠ (0, 0, 0))
    (hs : steady = true → 10e-15 ≤ √(x ^ 2 + y ^ 2 + z ^ 2)) :
    sph2cart (cart2sph x y z pos steady).1 (cart2sph x y z pos steady).2.1 (cart2sph x y z pos steady).2.2
      = (x, y, z) := by
  have hr := radius_pos h0
  have hzen : (cart2sph x y z pos steady).2.1 = arccos (z / √(x ^ 2 + y ^ 2 + z ^ 2)) := by
    unfold cart2sph
    cases steady
    · simp
    · simp [max_eq_left (hs rfl)]
  have hc : cos (cart2sph x y z pos steady).1 = cos (arctan2 y x) := by
    unfold cart2sph; cases pos
    · simp
    · simp [cos_pyMod]
  have hsn : sin (cart2sph x y z pos steady).1 = sin (arctan2 y x) := by
    unfold cart2sph; cases pos
    · simp
    · simp [sin_pyMod]
  have hr' : (cart2sph x y z pos steady).2.2 = √(x ^ 2 + y ^ 2 + z ^ 2) := rfl
  unfold sph2cart
  rw [hzen, hc, hsn, hr']
  have e1 := radius_mul_sin x y z hr
  have e2 := radius_mul_cos x y z hr
  have e3 := sqrt_mul_cos_arctan2 x y
  have e4 := sqrt_mul_sin_arctan2 x y
  refine Prod.ext ?_ (Prod.ext ?_ ?_)
  · simp only
    rw [mul_right_comm, e1, e3]
  · simp only
    rw [mul_right_comm, e1, e4]
  · simpa using e2

example : sph2cart (cart2sph (-1) 0 (-2) true true).1 (cart2sph (-1) 0 (-2) true true).2.1
    (cart2sph (-1) 0 (-2) true true).2.2 = (-1, 0, -2) := by
  apply C01_sph2cart_cart2sph
  · simp
  · intro _
    have : (1 : ℝ) ≤ √((-1) ^ 2 + 0 ^ 2 + (-2) ^ 2) := by
      rw [Real.one_le_sqrt]; norm_num
    exact le_trans (by norm_num) this

/-- C01: ranges of the angles `cart2sph` returns. -/
theorem C01_ranges (x y z : ℝ) (steady : Bool) :
    (cart2sph x y z false steady).1 ∈ Set.Ioc (-π) π ∧
    (cart2sph x y z true steady).1 ∈ Set.Ico 0 (2 * π) ∧
    ∀ pos, (cart2sph x y z pos steady).2.1 ∈ Set.Icc 0 π := by
  refine ⟨?_, ?_, ?_⟩
  · simp only [cart2sph, arctan2]
    exact Complex.arg_mem_Ioc _
  · simp only [cart2sph]
    exact ⟨pyMod_nonneg _ _ two_pi_pos, pyMod_lt _ _ two_pi_pos⟩
  · intro pos
    unfold cart2sph
    cases steady <;> exact ⟨arccos_nonneg _, arccos_le_pi _⟩

/-- C01: `cart2sph(*sph2cart(azi, zen, r)) == (azi, zen, r)` away from the poles; with `positive_azi` the azimuth is
the one in `[0, 2π)`. -/
theorem C01_cart2sph_sph2cart (azi zen r : ℝ) (ha : azi ∈ Set.Ioc (-π) π) (hz : zen ∈ Set.Ioo 0 π) (hr : 0 < r) :
    cart2sph (sph2cart azi zen r).1 (sph2cart azi zen r).2.1 (sph2cart azi zen r).2.2 false false = (azi, zen, r) ∧
    cart2sph (sph2cart azi zen r).1 (sph2cart azi zen r).2.1 (sph2cart azi zen r).2.2 true false
      = (if azi < 0 then azi + 2 * π else azi, zen, r) := by
  have hsin : 0 < sin zen := sin_pos_of_pos_of_lt_pi hz.1 hz.2
  have hrad : √((r * cos azi * sin zen) ^ 2 + (r * sin azi * sin zen) ^ 2 + (r * cos zen) ^ 2) = r := by
    have : (r * cos azi * sin zen) ^ 2 + (r * sin azi * sin zen) ^ 2 + (r * cos zen) ^ 2 = r ^ 2 := by
      have h1 := sin_sq_add_cos_sq azi
      have h2 := sin_sq_add_cos_sq zen
      calc _ = r ^ 2 * ((sin azi ^ 2 + cos azi ^ 2) * sin zen ^ 2 + cos zen ^ 2) := by ring
        _ = r ^ 2 := by rw [h1, one_mul, h2, mul_one]
    rw [this, Real.sqrt_sq hr.le]
  have harg : arctan2 (r * sin azi * sin zen) (r * cos azi * sin zen) = azi := by
    unfold arctan2
    have : (⟨r * cos azi * sin zen, r * sin azi * sin zen⟩ : ℂ)
        = ((r * sin zen : ℝ) : ℂ) * (Complex.cos azi + Complex.sin azi * Complex.I) := by
      apply Complex.ext
      · simp [Complex.cos_ofReal_re, Complex.sin_ofReal_re, Complex.cos_ofReal_im, Complex.sin_ofReal_im]; ring
      · simp [Complex.cos_ofReal_re, Complex.sin_ofReal_re, Complex.cos_ofReal_im, Complex.sin_ofReal_im]; ring
    rw [this, Complex.arg_mul_cos_add_sin_mul_I (by positivity) ha]
  have hzen : arccos (r * cos zen / r) = zen := by
    rw [mul_div_cancel_left₀ _ hr.ne', arccos_cos hz.1.le hz.2.le]
  constructor
  · simp only [cart2sph, sph2cart, hrad, harg, hzen]
    simp
  · simp only [cart2sph, sph2cart, hrad, harg, hzen]
    simp only [Bool.not_false, if_true]
    congr 1
    split_ifs with hneg
    · have := pyMod_add_int_mul azi (2 * π) two_pi_pos.ne' 1
      rw [← this]
      push_cast
      rw [one_mul, pyMod_eq_self]
      · linarith [ha.1, pi_pos]
      · linarith
    · push Not at hneg
      exact pyMod_eq_self _ _ hneg (by linarith [ha.2, pi_pos])

example : (1 : ℝ) ∈ Set.Ioc (-π) π ∧ (1 : ℝ) ∈ Set.Ioo 0 π := by
  have := pi_gt_three
  exact ⟨⟨by linarith, by linarith⟩, ⟨by norm_num, by linarith⟩⟩

/-- C01: `steady_zen` changes nothing from radius `10e-15` on. -/
theorem C01_steady (x y z : ℝ) (pos : Bool) (h : 10e-15 ≤ √(x ^ 2 + y ^ 2 + z ^ 2)) :
    cart2sph x y z pos true = cart2sph x y z pos false := by
  simp [cart2sph, max_eq_left h]

example : (10e-15 : ℝ) ≤ √((3 : ℝ) ^ 2 + 0 ^ 2 + 4 ^ 2) := by
  have : (1 : ℝ) ≤ √((3 : ℝ) ^ 2 + 0 ^ 2 + 4 ^ 2) := by rw [Real.one_le_sqrt]; norm_num
  exact le_trans (by norm_num) this

/-- C01: `dir2cart(*cart2dir(x, y, z))` and `vec2dir` give the normalised vector back. -/
theorem C01_dir2cart_cart2dir (x y z : ℝ) (h0 : (x, y, z) ≠ (0, 0, 0)) :
    dir2cart (cart2dir x y z).1 (cart2dir x y z).2
      = (x / √(x ^ 2 + y ^ 2 + z ^ 2), y / √(x ^ 2 + y ^ 2 + z ^ 2), z / √(x ^ 2 + y ^ 2 + z ^ 2)) ∧
    vec2dir ![x, y, z] = cart2dir x y z := by
  have hr := radius_pos h0
  have e1 := radius_mul_sin x y z hr
  have e2 := radius_mul_cos x y z hr
  have e3 := sqrt_mul_cos_arctan2 x y
  have e4 := sqrt_mul_sin_arctan2 x y
  refine ⟨?_, by simp [vec2dir]⟩
  simp only [dir2cart, cart2dir]
  refine Prod.ext ?_ (Prod.ext ?_ ?_)
  · simp only
    rw [eq_div_iff hr.ne', mul_assoc, mul_comm (sin (arccos _)), e1, mul_comm, e3]
  · simp only
    rw [eq_div_iff hr.ne', mul_assoc, mul_comm (sin (arccos _)), e1, mul_comm, e4]
  · simp only
    rw [eq_div_iff hr.ne', mul_comm, e2]

example : ((0 : ℝ), (0 : ℝ), (-3 : ℝ)) ≠ (0, 0, 0) := by simp

/-- C01: `matlab_sph2cart` is `sph2cart` with the elevation `π/2 - zen`. -/
theorem C01_matlab (azi zen r : ℝ) : matlabSph2cart azi (π / 2 - zen) r = sph2cart azi zen r := by
  simp [matlabSph2cart, sph2cart, sin_pi_div_two_sub, cos_pi_div_two_sub]
  constructor <;> ring

/-- C02: ranges, periodicity and mutual inversion of `deg2rad` and `rad2deg`. -/
theorem C02_ranges (d r : ℝ) : deg2rad d ∈ Set.Ico 0 (2 * π) ∧ rad2deg r ∈ Set.Ico 0 360 := by
  refine ⟨⟨?_, ?_⟩, ?_, ?_⟩
  · have := pyMod_nonneg d 360 (by norm_num)
    unfold deg2rad; positivity
  · have h := pyMod_lt d 360 (by norm_num)
    unfold deg2rad
    have : pyMod d 360 / 180 < 2 := by linarith
    nlinarith [pi_pos]
  · exact pyMod_nonneg _ _ (by norm_num)
  · exact pyMod_lt _ _ (by norm_num)

theorem C02_periodic (d r : ℝ) (k : ℤ) :
    deg2rad (d + k * 360) = deg2rad d ∧ rad2deg (r + k * (2 * π)) = rad2deg r := by
  constructor
  · unfold deg2rad; rw [pyMod_add_int_mul _ _ (by norm_num)]
  · unfold rad2deg
    have : (r + k * (2 * π)) / π * 180 = r / π * 180 + k * 360 := by
      have := pi_ne_zero; field_simp; ring
    rw [this, pyMod_add_int_mul _ _ (by norm_num)]

theorem C02_inverse (d r : ℝ) (hd : d ∈ Set.Ico 0 360) (hr : r ∈ Set.Ico 0 (2 * π)) :
    rad2deg (deg2rad d) = d ∧ deg2rad (rad2deg r) = r := by
  have hpi := pi_pos
  constructor
  · unfold rad2deg deg2rad
    rw [pyMod_eq_self d 360 hd.1 hd.2]
    have : d / 180 * π / π * 180 = d := by field_simp
    rw [this, pyMod_eq_self d 360 hd.1 hd.2]
  · unfold rad2deg deg2rad
    have h1 : 0 ≤ r / π * 180 := by have := hr.1; positivity
    have h2 : r / π * 180 < 360 := by
      have : r / π < 2 := by rw [div_lt_iff₀ hpi]; exact hr.2
      linarith
    rw [pyMod_eq_self _ 360 h1 h2, pyMod_eq_self _ 360 h1 h2]
    field_simp

example : (90 : ℝ) ∈ Set.Ico 0 360 ∧ (1 : ℝ) ∈ Set.Ico 0 (2 * π) :=
  ⟨⟨by norm_num, by norm_num⟩, ⟨by norm_num, by linarith [pi_gt_three]⟩⟩

/-- C02: on every angle, not only reduced ones, the two conversions are inverse up to whole turns. -/
theorem C02_inverse_mod (d r : ℝ) :
    (∃ k : ℤ, rad2deg (deg2rad d) = d + k * 360) ∧ ∃ k : ℤ, deg2rad (rad2deg r) = r + k * (2 * π) := by
  constructor
  · obtain ⟨k, hk⟩ := exists_pyMod d 360
    refine ⟨k, ?_⟩
    have h := (C02_inverse (pyMod d 360) 0 ⟨pyMod_nonneg _ _ (by norm_num), pyMod_lt _ _ (by norm_num)⟩
      ⟨le_rfl, two_pi_pos⟩).1
    rw [← hk, ← h]
    congr 1
    conv_lhs => unfold deg2rad
    unfold deg2rad
    rw [pyMod_eq_self (pyMod d 360) 360 (pyMod_nonneg _ _ (by norm_num)) (pyMod_lt _ _ (by norm_num))]
  · obtain ⟨k, hk⟩ := exists_pyMod (r / π * 180) 360
    refine ⟨k, ?_⟩
    unfold deg2rad rad2deg
    rw [pyMod_eq_self (pyMod (r / π * 180) 360) 360 (pyMod_nonneg _ _ (by norm_num)) (pyMod_lt _ _ (by norm_num)), hk]
    have := pi_ne_zero
    field_simp; ring

/-- C02: the value: up to whole turns, `deg2rad` multiplies by π/180 and `rad2deg` by 180/π. -/
theorem C02_value (d r : ℝ) : (∃ k : ℤ, deg2rad d = d * π / 180 + k * (2 * π)) ∧ ∃ k : ℤ, rad2deg r = r * 180 / π + k * 360 := by
  refine ⟨⟨-⌊d / 360⌋, ?_⟩, ⟨-⌊r / π * 180 / 360⌋, ?_⟩⟩
  · unfold deg2rad pyMod
    push_cast
    ring
  · unfold rad2deg pyMod
    push_cast
    ring

/-- `C02_value`: a quarter turn, and a quarter turn the other way. -/
example : deg2rad 90 = π / 2 ∧ rad2deg (-π / 2) = 270 := by
  have hpi := pi_ne_zero
  refine ⟨?_, ?_⟩
  · have h := C02_inverse 90 (π / 2) (by norm_num) ⟨by positivity, by linarith [pi_pos]⟩
    rw [deg2rad, pyMod, show ⌊(90 : ℝ) / 360⌋ = 0 from Int.floor_eq_iff.2 (by norm_num)]
    push_cast
    ring
  · rw [rad2deg, pyMod, show -π / 2 / π * 180 = -90 by field_simp; norm_num, show ⌊(-90 : ℝ) / 360⌋ = -1 from Int.floor_eq_iff.2 (by norm_num)]
    norm_num

end Verif.Utils
