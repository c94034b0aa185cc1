import Mathlib.Analysis.Convex.Deriv
import Mathlib.Analysis.Calculus.MeanValue
import Verif.Props.ProcessFilters

/-!
C184: the curve of `gain_clipping` has no corner.
-/

namespace Verif.Props

open Real Verif.Process

theorem clip_above (g t : ℝ) (ht : 0 < t) (hg : t ≤ g) : gainClipping g t = (1 + tanh (g / t - 1)) * t := by
  rcases hg.eq_or_lt with rfl | h
  · rw [C55_unchanged t t ht le_rfl, div_self ht.ne']; simp
  · have h1 : g / t > 1 := by rw [gt_iff_lt, lt_div_iff₀ ht]; linarith
    simp only [gainClipping, h1, if_true]

theorem hasDeriv_above (g t : ℝ) (ht : 0 < t) : HasDerivAt (fun g => (1 + tanh (g / t - 1)) * t) (1 / cosh (g / t - 1) ^ 2) g := by
  have hc : cosh (g / t - 1) ≠ 0 := (cosh_pos _).ne'
  have hi : HasDerivAt (fun g : ℝ => g / t - 1) (1 / t) g := ((hasDerivAt_id g).div_const t).sub_const 1
  have hs : HasDerivAt (fun g : ℝ => sinh (g / t - 1)) (cosh (g / t - 1) * (1 / t)) g := hi.sinh
  have hk : HasDerivAt (fun g : ℝ => cosh (g / t - 1)) (sinh (g / t - 1) * (1 / t)) g := hi.cosh
  have hq := (((hs.div hk hc).const_add 1).mul_const t)
  have e : (fun g : ℝ => (1 + tanh (g / t - 1)) * t) = fun g : ℝ => (1 + sinh (g / t - 1) / cosh (g / t - 1)) * t := by
    funext x; rw [tanh_eq_sinh_div_cosh]
  rw [e]
  refine hq.congr_deriv ?_
  have := cosh_sq_sub_sinh_sq (g / t - 1)
  generalize g / t - 1 = u at *
  field_simp
  linarith

/-- **C184** The curve has a slope everywhere: one up to the threshold, then falling like the squared inverse of a hyperbolic cosine. -/
theorem C184_slope (g t : ℝ) (ht : 0 < t) : HasDerivAt (fun g => gainClipping g t) (1 / cosh (max (g / t - 1) 0) ^ 2) g := by
  have hlow : ∀ x ≤ t, HasDerivWithinAt (fun g => gainClipping g t) 1 (Set.Iic t) x := fun x hx =>
    (hasDerivWithinAt_id x _).congr (fun y hy => C55_unchanged y t ht hy) (C55_unchanged x t ht hx)
  have hhigh : ∀ x, t ≤ x → HasDerivWithinAt (fun g => gainClipping g t) (1 / cosh (x / t - 1) ^ 2) (Set.Ici t) x := fun x hx =>
    (hasDeriv_above x t ht).hasDerivWithinAt.congr (fun y hy => clip_above y t ht hy) (clip_above x t ht hx)
  rcases lt_trichotomy g t with h | rfl | h
  · have : g / t - 1 ≤ 0 := by rw [sub_nonpos, div_le_one ht]; exact h.le
    rw [max_eq_right this, cosh_zero, one_pow, div_one]
    exact (hlow g h.le).hasDerivAt (Iic_mem_nhds h)
  · have h1 := hlow g le_rfl
    have h2 := hhigh g le_rfl
    rw [div_self ht.ne', sub_self, cosh_zero, one_pow, div_one] at h2
    rw [div_self ht.ne', sub_self, max_self, cosh_zero, one_pow, div_one]
    have h3 := h1.union h2
    rwa [Set.Iic_union_Ici, hasDerivWithinAt_univ] at h3
  · have : 0 ≤ g / t - 1 := by rw [sub_nonneg, one_le_div ht]; exact h.le
    rw [max_eq_left this]
    exact (hhigh g h.le).hasDerivAt (Ici_mem_nhds h)

theorem clip_slope_range (x : ℝ) : 0 < 1 / cosh x ^ 2 ∧ 1 / cosh x ^ 2 ≤ 1 := by
  have h := one_le_cosh x
  refine ⟨by positivity, ?_⟩
  rw [div_le_one (by positivity)]
  nlinarith

/-- **C184** Differences between gains are never enlarged. -/
theorem C184_lipschitz (x y t : ℝ) (ht : 0 < t) : |gainClipping x t - gainClipping y t| ≤ |x - y| := by
  have h := Convex.norm_image_sub_le_of_norm_hasDerivWithin_le (f := fun g => gainClipping g t) (C := 1) (s := Set.univ)
    (f' := fun g => 1 / cosh (max (g / t - 1) 0) ^ 2) (fun g _ => (C184_slope g t ht).hasDerivWithinAt)
    (fun g _ => by
      have := clip_slope_range (max (g / t - 1) 0)
      rw [norm_of_nonneg this.1.le]; exact this.2)
    convex_univ (Set.mem_univ y) (Set.mem_univ x)
  simpa [Real.norm_eq_abs] using h

/-- **C184** The curve is concave. -/
theorem C184_concave (t : ℝ) (ht : 0 < t) : ConcaveOn ℝ Set.univ fun g => gainClipping g t := by
  refine Antitone.concaveOn_univ_of_deriv (fun g => (C184_slope g t ht).differentiableAt) fun x y hxy => ?_
  rw [(C184_slope x t ht).deriv, (C184_slope y t ht).deriv]
  have hm : max (x / t - 1) 0 ≤ max (y / t - 1) 0 := max_le_max (by
    have := div_le_div_of_nonneg_right hxy ht.le; linarith) le_rfl
  have h0 : 0 ≤ max (x / t - 1) 0 := le_max_right _ _
  have hc : cosh (max (x / t - 1) 0) ≤ cosh (max (y / t - 1) 0) := by
    rw [cosh_le_cosh, abs_of_nonneg h0, abs_of_nonneg (h0.trans hm)]; exact hm
  have hp := cosh_pos (max (x / t - 1) 0)
  exact one_div_le_one_div_of_le (by positivity) (pow_le_pow_left₀ hp.le hc 2)

/-- **C184** Gains and threshold can be given in any unit. -/
theorem C184_scale (c g t : ℝ) (hc : c ≠ 0) : gainClipping (c * g) (c * t) = c * gainClipping g t := by
  simp only [gainClipping, mul_div_mul_left g t hc]
  ring

/-- **C184** A larger threshold never gives smaller gains. -/
theorem C184_threshold (g s t : ℝ) (hs : 0 < s) (hst : s ≤ t) : gainClipping g s ≤ gainClipping g t := by
  have ht : 0 < t := hs.trans_le hst
  rcases le_or_gt g t with h | h
  · rw [C55_unchanged g t ht h]; exact (C55_bound g s hs).1
  · set l : ℝ := s / t with hl
    have hl0 : 0 < l := div_pos hs ht
    have hl1 : l ≤ 1 := (div_le_one ht).2 hst
    have hcon := (C184_concave s hs).2 (Set.mem_univ (0 : ℝ)) (Set.mem_univ g) (by linarith : 0 ≤ 1 - l) hl0.le (by ring)
    simp only [smul_eq_mul, mul_zero, zero_add, C55_unchanged 0 s hs hs.le] at hcon
    have hsc := C184_scale l g t hl0.ne'
    rw [show l * t = s by rw [hl]; field_simp] at hsc
    rw [hsc] at hcon
    exact le_of_mul_le_mul_left hcon hl0

/-- The corner at the threshold 2.5 of the documentation example has slope one, and clipping in another unit. -/
example : HasDerivAt (fun g => gainClipping g 2.5) 1 2.5 := by
  have h := C184_slope 2.5 2.5 (by norm_num)
  norm_num at h
  norm_num
  exact h

example : gainClipping 10 1 ≤ gainClipping 10 2.5 ∧ |gainClipping 10 2.5 - gainClipping 3 2.5| ≤ |10 - 3| ∧
    gainClipping (2 * 10) (2 * 2.5) = 2 * gainClipping 10 2.5 :=
  ⟨C184_threshold 10 1 2.5 (by norm_num) (by norm_num), C184_lipschitz 10 3 2.5 (by norm_num), C184_scale 2 10 2.5 (by norm_num)⟩

end Verif.Props
