import Mathlib.LinearAlgebra.Lagrange
import Mathlib.Analysis.SpecialFunctions.Artanh
import Mathlib.Analysis.Calculus.Deriv.MeanValue
import Mathlib.Analysis.SpecialFunctions.Trigonometric.DerivHyp
import Mathlib.Data.List.GetD
import Mathlib.Tactic
import Verif.Model.Process

/-!
C53 (`lagrange_delay`), C55 (`gain_clipping`), C59 (`half_sided_Hann`).
-/

namespace Verif.Props

open Real Verif.Process Polynomial

/-! ### C53 -/

theorem lagrange_fold (N : ℕ) (d : ℝ) (n : Fin (N + 1)) (l : List ℕ) (h : Fin (N + 1) → ℝ) :
    (l.foldl (lagrangeStep N d) h) n = h n * (l.map fun k => if (n : ℕ) ≠ k then (d - k) / ((n : ℝ) - k) else 1).prod := by
  induction l generalizing h with
  | nil => simp
  | cons k l ih =>
      rw [List.foldl_cons, ih, List.map_cons, List.prod_cons]
      by_cases hk : (n : ℕ) ≠ k
      · simp only [lagrangeStep, hk, ne_eq, not_false_eq_true, if_true]; ring
      · simp only [lagrangeStep, hk, if_false]; ring

theorem lagrange_eq_basis (N : ℕ) (d : ℝ) (n : Fin (N + 1)) :
    lagrangeDelay N d n = (Lagrange.basis (Finset.univ : Finset (Fin (N + 1))) (fun i => ((i : ℕ) : ℝ)) n).eval d := by
  rw [lagrangeDelay, lagrange_fold, one_mul, Lagrange.basis, eval_prod]
  simp only [Lagrange.basisDivisor, eval_mul, eval_C, eval_sub, eval_X]
  have : (List.map (fun k : ℕ => if (n : ℕ) ≠ k then (d - k) / ((n : ℝ) - k) else 1) (List.range (N + 1))).prod
      = ∏ k ∈ Finset.range (N + 1), if (n : ℕ) ≠ k then (d - k) / ((n : ℝ) - k) else 1 := by
    rw [Finset.prod_eq_multiset_prod]; rfl
  rw [this, Finset.prod_range]
  rw [← Finset.mul_prod_erase _ _ (Finset.mem_univ n)]
  simp only [ne_eq, not_true_eq_false, if_false, one_mul]
  apply Finset.prod_congr rfl
  intro k hk
  have : ¬ (n : ℕ) = k := fun h => (Finset.ne_of_mem_erase hk) (Fin.ext h.symm)
  rw [if_pos this]; ring

theorem nodes_inj (N : ℕ) : Set.InjOn (fun i : Fin (N + 1) => ((i : ℕ) : ℝ)) (Finset.univ : Finset (Fin (N + 1))) := by
  intro a _ b _ h; exact Fin.ext (Nat.cast_injective h)

/-- **C53**: every polynomial of degree at most `N` is interpolated exactly at the (arbitrary, possibly extrapolating) delay. -/
theorem C53_interpolates (N : ℕ) (d : ℝ) (q : ℝ[X]) (hq : q.natDegree ≤ N) :
    ∑ k : Fin (N + 1), lagrangeDelay N d k * q.eval ((k : ℕ) : ℝ) = q.eval d := by
  have hdeg : q.degree < (Finset.univ : Finset (Fin (N + 1))).card := by
    rw [Finset.card_univ, Fintype.card_fin]
    exact lt_of_le_of_lt degree_le_natDegree (by exact_mod_cast Nat.lt_succ_of_le hq)
  conv_rhs => rw [Lagrange.eq_interpolate (nodes_inj N) hdeg, Lagrange.interpolate_apply, eval_finset_sum]
  apply Finset.sum_congr rfl
  intro k _
  rw [eval_mul, eval_C, lagrange_eq_basis, mul_comm]

example : (X ^ 2 - 3 * X + 1 : ℝ[X]).natDegree ≤ 3 := by
  refine le_trans (?_ : _ ≤ 2) (by norm_num); compute_degree

/-- **C53**: there are `N + 1` taps (the type), they sum to one. -/
theorem C53_sum (N : ℕ) (d : ℝ) : ∑ k : Fin (N + 1), lagrangeDelay N d k = 1 := by
  simpa using C53_interpolates N d 1 (by simp)

/-- **C53**: an integer delay `j ≤ N` gives the unit impulse at `j`. -/
theorem C53_impulse (N : ℕ) (j k : Fin (N + 1)) : lagrangeDelay N ((j : ℕ) : ℝ) k = if k = j then 1 else 0 := by
  rw [lagrange_eq_basis]
  by_cases h : k = j
  · subst h
    rw [if_pos rfl]
    exact Lagrange.eval_basis_self (v := fun i : Fin (N + 1) => ((i : ℕ) : ℝ)) (nodes_inj N) (Finset.mem_univ k)
  · rw [if_neg h]
    exact Lagrange.eval_basis_of_ne (v := fun i : Fin (N + 1) => ((i : ℕ) : ℝ)) h (Finset.mem_univ j)

/-- **C53**: these are the only `N + 1` taps with that interpolation property. -/
theorem C53_unique (N : ℕ) (d : ℝ) (h : Fin (N + 1) → ℝ)
    (H : ∀ q : ℝ[X], q.natDegree ≤ N → ∑ k : Fin (N + 1), h k * q.eval ((k : ℕ) : ℝ) = q.eval d) : h = lagrangeDelay N d := by
  funext n
  have hn := H (Lagrange.basis Finset.univ (fun i : Fin (N + 1) => ((i : ℕ) : ℝ)) n)
    (by rw [Lagrange.natDegree_basis (nodes_inj N) (Finset.mem_univ n)]; simp)
  rw [← lagrange_eq_basis, Finset.sum_eq_single n] at hn
  · rw [Lagrange.eval_basis_self (v := fun i : Fin (N + 1) => ((i : ℕ) : ℝ)) (nodes_inj N) (Finset.mem_univ n), mul_one] at hn
    exact hn
  · intro k _ hk
    rw [Lagrange.eval_basis_of_ne (v := fun i : Fin (N + 1) => ((i : ℕ) : ℝ)) (Ne.symm hk) (Finset.mem_univ k), mul_zero]
  · simp

/-- The half-sample delay of order one is the two-point average, of order three the classic `(-1, 9, 9, -1)/16`. -/
example : lagrangeDelay 1 (1 / 2) = ![1 / 2, 1 / 2] := by
  funext i; fin_cases i <;> norm_num [lagrangeDelay, lagrangeStep, List.range_succ]

example : lagrangeDelay 3 (3 / 2) = ![-1 / 16, 9 / 16, 9 / 16, -1 / 16] := by
  funext i; fin_cases i <;> norm_num [lagrangeDelay, lagrangeStep, List.range_succ]

/-! ### C55 -/

theorem tanh_strictMono : StrictMono tanh := by
  intro x y h
  have := Real.artanh_lt_artanh_iff (x := tanh x) (y := tanh y) ⟨neg_one_lt_tanh x, tanh_lt_one x⟩ ⟨neg_one_lt_tanh y, tanh_lt_one y⟩
  rw [Real.artanh_tanh, Real.artanh_tanh] at this
  exact this.1 h

theorem tanh_lt_self {x : ℝ} (hx : 0 < x) : tanh x < x := by
  have hc : 0 < cosh x := cosh_pos x
  rw [tanh_eq_sinh_div_cosh, div_lt_iff₀ hc]
  have hmono : StrictMonoOn (fun t : ℝ => t * cosh t - sinh t) (Set.Ici 0) := by
    apply strictMonoOn_of_deriv_pos (convex_Ici 0)
    · exact (continuous_id.mul continuous_cosh |>.sub continuous_sinh).continuousOn
    · intro t ht
      rw [interior_Ici] at ht
      have hd : HasDerivAt (fun t : ℝ => t * cosh t - sinh t) (1 * cosh t + t * sinh t - cosh t) t :=
        ((hasDerivAt_id t).mul (hasDerivAt_cosh t)).sub (hasDerivAt_sinh t)
      rw [hd.deriv]
      have : 0 < t * sinh t := mul_pos ht (sinh_pos_iff.2 ht)
      linarith
  have := hmono (Set.mem_Ici.2 le_rfl) (Set.mem_Ici.2 hx.le) hx
  simp only [zero_mul, sinh_zero, sub_zero] at this
  linarith

/-- **C55**: gains up to the threshold pass unchanged. -/
theorem C55_unchanged (g t : ℝ) (ht : 0 < t) (hg : g ≤ t) : gainClipping g t = g := by
  have h1 : ¬ g / t > 1 := by rw [gt_iff_lt, lt_div_iff₀ ht]; linarith
  simp only [gainClipping, h1, if_false]
  field_simp

example : gainClipping (-3) 2 = -3 := C55_unchanged _ _ (by norm_num) (by norm_num)

/-- **C55**: above the threshold the result is strictly between the threshold and the smaller of the gain and twice the threshold. -/
theorem C55_clipped (g t : ℝ) (ht : 0 < t) (hg : t < g) : t < gainClipping g t ∧ gainClipping g t < g ∧ gainClipping g t < 2 * t := by
  have h1 : g / t > 1 := by rw [gt_iff_lt, lt_div_iff₀ ht]; linarith
  have hx : 0 < g / t - 1 := by linarith
  have hpos : 0 < tanh (g / t - 1) := by
    have := tanh_strictMono hx
    rwa [tanh_zero] at this
  simp only [gainClipping, h1, if_true]
  refine ⟨by nlinarith, ?_, by nlinarith [tanh_lt_one (g / t - 1)]⟩
  have h2 := tanh_lt_self hx
  have h3 : (1 + tanh (g / t - 1)) * t < g / t * t := mul_lt_mul_of_pos_right (by linarith) ht
  rwa [div_mul_cancel₀ g ht.ne'] at h3

example : (0 : ℝ) < 2.5 ∧ (2.5 : ℝ) < 10 := by norm_num

/-- **C55**: the result never exceeds the input and stays below twice the threshold. -/
theorem C55_bound (g t : ℝ) (ht : 0 < t) : gainClipping g t ≤ g ∧ gainClipping g t < 2 * t := by
  rcases le_or_gt g t with h | h
  · rw [C55_unchanged g t ht h]; constructor <;> linarith
  · exact ⟨(C55_clipped g t ht h).2.1.le, (C55_clipped g t ht h).2.2⟩

/-- `C55_bound`, `C55_strictMono`: threshold one half. -/
example : gainClipping 10 0.5 < 2 * 0.5 := (C55_bound 10 0.5 (by norm_num)).2

/-- **C55**: the clipping curve is strictly increasing. -/
theorem C55_strictMono (t : ℝ) (ht : 0 < t) : StrictMono fun g => gainClipping g t := by
  intro x y hxy
  simp only
  rcases le_or_gt y t with hy | hy
  · rw [C55_unchanged x t ht (by linarith), C55_unchanged y t ht hy]; exact hxy
  · rcases le_or_gt x t with hx | hx
    · rw [C55_unchanged x t ht hx]; linarith [(C55_clipped y t ht hy).1]
    · have h1 : x / t > 1 := by rw [gt_iff_lt, lt_div_iff₀ ht]; linarith
      have h2 : y / t > 1 := by rw [gt_iff_lt, lt_div_iff₀ ht]; linarith
      simp only [gainClipping, h1, h2, if_true]
      have h3 : x / t < y / t := div_lt_div_of_pos_right hxy ht
      have := tanh_strictMono (show x / t - 1 < y / t - 1 by linarith)
      nlinarith

example : gainClipping 3 0.5 < gainClipping 10 0.5 := C55_strictMono 0.5 (by norm_num) (by norm_num)

/-- The bound `2 * t` is the best possible one: the clipped gain gets arbitrarily close to it. -/
theorem C55_limit_sharp (t : ℝ) (ht : 0 < t) (c : ℝ) (hc : c < 2 * t) : ∃ g, c < gainClipping g t := by
  rcases le_or_gt c t with h | h
  · exact ⟨2 * t, by have := (C55_clipped (2 * t) t ht (by linarith)).1; linarith⟩
  · have hy : c / t - 1 ∈ Set.Ioo (-1 : ℝ) 1 := by
      constructor
      · have : 0 < c / t := div_pos (by linarith) ht
        linarith
      · have : c / t < 2 := by rw [div_lt_iff₀ ht]; linarith
        linarith
    have hpos : 0 < artanh (c / t - 1) := artanh_pos ⟨by
      have : 1 < c / t := by rw [lt_div_iff₀ ht]; linarith
      linarith, hy.2⟩
    refine ⟨(artanh (c / t - 1) + 2) * t, ?_⟩
    have hdiv : (artanh (c / t - 1) + 2) * t / t = artanh (c / t - 1) + 2 := by field_simp
    have h1 : (artanh (c / t - 1) + 2) * t / t > 1 := by rw [hdiv]; linarith
    simp only [gainClipping, h1, if_true]
    rw [hdiv]
    have h2 : tanh (artanh (c / t - 1)) < tanh (artanh (c / t - 1) + 2 - 1) := tanh_strictMono (by linarith)
    rw [tanh_artanh hy] at h2
    have : (c / t) * t < (1 + tanh (artanh (c / t - 1) + 2 - 1)) * t := mul_lt_mul_of_pos_right (by linarith) ht
    rwa [div_mul_cancel₀ c ht.ne'] at this

example : (2 : ℝ) < 2 * 1.5 := by norm_num

/-! ### C59 -/

theorem hann_getD (M i : ℕ) (hM : 1 < M) (hi : i < M) : (hann M).getD i 0 = 0.5 - 0.5 * cos (2 * π * i / (M - 1)) := by
  rw [hann, if_neg (by omega), List.getD_eq_getElem?_getD]
  simp [hi]

theorem hann_length (M : ℕ) : (hann M).length = M := by
  unfold hann; split <;> simp_all

/-- The whole window: ones, then a falling half-period cosine. -/
theorem half_hann_eq (N : ℕ) (hN : 3 ≤ N) : halfSidedHann N =
    .ok (List.replicate (N + 1 - (N - 1) / 2) 1 ++ (List.range ((N - 1) / 2)).map fun j : ℕ => 0.5 + 0.5 * cos (π * (j + 1) / (((N + 1) / 2 : ℕ) : ℝ))) := by
  have h3 : (3 : ℤ) ≤ N := by exact_mod_cast hN
  obtain ⟨h, hh⟩ : ∃ h, h = (N + 1) / 2 := ⟨_, rfl⟩
  have hh2 : 2 ≤ h := by omega
  have hm : (N - 1) / 2 = h - 1 := by omega
  have e1 : (((N : ℤ) + 1) / 2) = (h : ℤ) := by omega
  have e2 : (((N : ℤ) - 1) / 2).toNat = h - 1 := by omega
  have e3 : ((N : ℤ) + 1).toNat = N + 1 := by omega
  have e4 : (2 * (h : ℤ) + 1).toNat = 2 * h + 1 := by omega
  simp only [halfSidedHann, h3, if_true, e1, e2, e3, e4, hm, ← hh]
  have hpart : pySlice (hann (2 * h + 1)) (-(h : ℤ)) (-1) = (List.range (h - 1)).map fun j : ℕ => 0.5 + 0.5 * cos (π * (j + 1) / (h : ℝ)) := by
    apply List.ext_getElem
    · simp only [pySlice, hann_length, List.length_map, List.length_range, sliceBound, List.length_take, List.length_drop]
      omega
    · intro j h1 h2
      simp only [List.length_map, List.length_range] at h2
      have hb : sliceBound (2 * h + 1) (-(h : ℤ)) = h + 1 := by simp only [sliceBound]; omega
      simp only [pySlice, hann_length, hb, List.getElem_take, List.getElem_drop, List.getElem_map, List.getElem_range]
      have hg := hann_getD (2 * h + 1) (h + 1 + j) (by omega) (by omega)
      rw [List.getD_eq_getElem?_getD, List.getElem?_eq_getElem (by rw [hann_length]; omega)] at hg
      rw [Option.getD_some] at hg; rw [hg]
      have hpos : (0 : ℝ) < h := by positivity
      have : 2 * π * ((h + 1 + j : ℕ) : ℝ) / (((2 * h + 1 : ℕ) : ℝ) - 1) = π * (j + 1) / h + π := by
        push_cast; field_simp; ring
      rw [this, cos_add_pi]; ring
  rw [hpart, setTail, if_pos (by simp only [List.length_map, List.length_range, List.length_replicate]; omega)]
  simp only [List.take_replicate, List.length_replicate]
  rw [Nat.min_eq_left (by omega)]

/-- **C59**: `N + 1` weights, all in `(0, 1]`. -/
theorem C59_range (N : ℕ) (hN : 3 ≤ N) : ∃ w, halfSidedHann N = .ok w ∧ w.length = N + 1 ∧ ∀ x ∈ w, 0 < x ∧ x ≤ 1 := by
  refine ⟨_, half_hann_eq N hN, by simp; omega, ?_⟩
  intro x hx
  rcases List.mem_append.1 hx with h | h
  · rw [List.eq_of_mem_replicate h]; norm_num
  · obtain ⟨j, hj, rfl⟩ := List.mem_map.1 h
    rw [List.mem_range] at hj
    obtain ⟨h', hh⟩ : ∃ h, h = (N + 1) / 2 := ⟨_, rfl⟩
    rw [← hh]
    have hj' : j + 1 < h' := by omega
    have hpos : (0 : ℝ) < h' := by exact_mod_cast (by omega : 0 < h')
    have hlt : π * (j + 1) / (h' : ℝ) < π := by
      rw [div_lt_iff₀ hpos]
      have : ((j : ℝ) + 1) < h' := by exact_mod_cast hj'
      nlinarith [pi_pos]
    have h0 : 0 ≤ π * (j + 1) / (h' : ℝ) := by positivity
    have hc : -1 < cos (π * (j + 1) / (h' : ℝ)) := by
      rw [← cos_pi]; exact strictAntiOn_cos ⟨h0, hlt.le⟩ ⟨pi_pos.le, le_rfl⟩ hlt
    constructor
    · norm_num; linarith
    · have := cos_le_one (π * (j + 1) / (h' : ℝ)); norm_num; linarith

/-- **C59**: the first `N + 1 - (N-1)//2` weights are one, the remaining ones are below one and strictly decrease. -/
theorem C59_shape (N : ℕ) (hN : 3 ≤ N) : ∃ w, halfSidedHann N = .ok w ∧
    (∀ i, i < N + 1 - (N - 1) / 2 → w.getD i 0 = 1) ∧
    (∀ i, N + 1 - (N - 1) / 2 ≤ i + 1 → i + 1 < N + 1 → w.getD (i + 1) 0 < w.getD i 0) := by
  refine ⟨_, half_hann_eq N hN, ?_, ?_⟩
  · intro i hi
    rw [List.getD_append _ _ _ _ (by simpa using hi)]
    simp [List.getD_eq_getElem?_getD, hi]
  · intro i h1 h2
    obtain ⟨h', hh⟩ : ∃ h, h = (N + 1) / 2 := ⟨_, rfl⟩
    have hm : (N - 1) / 2 = h' - 1 := by omega
    rw [hm] at *
    rw [← hh]
    have hpos : (0 : ℝ) < h' := by exact_mod_cast (by omega : 0 < h')
    have tail : ∀ j, j < h' - 1 → (List.replicate (N + 1 - (h' - 1)) (1 : ℝ) ++ (List.range (h' - 1)).map fun j : ℕ => 0.5 + 0.5 * cos (π * (j + 1) / (h' : ℝ))).getD
        (N + 1 - (h' - 1) + j) 0 = 0.5 + 0.5 * cos (π * (j + 1) / (h' : ℝ)) := by
      intro j hj
      rw [List.getD_append_right _ _ _ _ (by simp)]
      simp [List.getD_eq_getElem?_getD, hj]
    have mono : ∀ x y : ℝ, 0 ≤ x → x < y → y ≤ h' → cos (π * y / h') < cos (π * x / h') := by
      intro x y hx hxy hy
      apply strictAntiOn_cos
      · exact ⟨by positivity, by rw [div_le_iff₀ hpos]; nlinarith [pi_pos]⟩
      · exact ⟨by have := hx.trans hxy.le; positivity, by rw [div_le_iff₀ hpos]; nlinarith [pi_pos]⟩
      · exact div_lt_div_of_pos_right (by nlinarith [pi_pos]) hpos
    rcases Nat.lt_or_ge i (N + 1 - (h' - 1)) with h3 | h3
    · have hi : i + 1 = N + 1 - (h' - 1) + 0 := by omega
      rw [hi, tail 0 (by omega), List.getD_append _ _ _ _ (by simpa using h3)]
      rw [show (List.replicate (N + 1 - (h' - 1)) (1 : ℝ)).getD i 0 = 1 by simp [List.getD_eq_getElem?_getD, h3]]
      have := mono 0 (((0 : ℕ) : ℝ) + 1) le_rfl (by norm_num) (by exact_mod_cast (by omega : 0 + 1 ≤ h'))
      simp only [mul_zero, zero_div, cos_zero] at this
      norm_num at this ⊢; linarith
    · obtain ⟨j, rfl⟩ : ∃ j, i = N + 1 - (h' - 1) + j := ⟨i - (N + 1 - (h' - 1)), by omega⟩
      rw [tail j (by omega), show N + 1 - (h' - 1) + j + 1 = N + 1 - (h' - 1) + (j + 1) by omega, tail (j + 1) (by omega)]
      have := mono ((j : ℝ) + 1) (((j + 1 : ℕ) : ℝ) + 1) (by positivity) (by push_cast; linarith) (by exact_mod_cast (by omega : j + 1 + 1 ≤ h'))
      linarith

/-- **C59**: the tail is the falling half of a Hann window: the squared cosine of angles growing in equal steps from 0 (the last one) to a quarter turn (one after the end). -/
theorem C59_tail (N : ℕ) (hN : 3 ≤ N) : ∃ w, halfSidedHann N = .ok w ∧
    ∀ j ≤ (N - 1) / 2, w.getD (N - (N - 1) / 2 + j) 0 = cos (π / 2 * (j / ((N - 1) / 2 + 1 : ℕ))) ^ 2 := by
  refine ⟨_, half_hann_eq N hN, fun j hj => ?_⟩
  rcases Nat.eq_zero_or_pos j with rfl | h0
  · rw [List.getD_append _ _ _ _ (by simp; omega)]
    have : N - (N - 1) / 2 < N + 1 - (N - 1) / 2 := by omega
    simp [List.getD_eq_getElem?_getD, this]
  · obtain ⟨k, rfl⟩ : ∃ k, j = k + 1 := ⟨j - 1, by omega⟩
    have hk : k < (N - 1) / 2 := by omega
    rw [List.getD_append_right _ _ _ _ (by simp; omega), List.length_replicate, show N - (N - 1) / 2 + (k + 1) - (N + 1 - (N - 1) / 2) = k by omega,
      List.getD_eq_getElem?_getD, List.getElem?_map, List.getElem?_range hk, Option.map_some, Option.getD_some, cos_sq, show (N + 1) / 2 = (N - 1) / 2 + 1 by omega,
      show 2 * (π / 2 * (((k + 1 : ℕ) : ℝ) / ((N - 1) / 2 + 1 : ℕ))) = π * (k + 1) / (((N - 1) / 2 + 1 : ℕ) : ℝ) by push_cast; ring]
    ring

/-- `C59_tail`: order 3 has one weight of one half at the end. -/
example : ∃ w, halfSidedHann (3 : ℕ) = .ok w ∧ w.getD 3 0 = 1 / 2 := by
  obtain ⟨w, h, hw⟩ := C59_tail 3 (by norm_num)
  refine ⟨w, h, ?_⟩
  have := hw 1 (by norm_num)
  norm_num at this
  rw [List.getD_eq_getElem?_getD, this, show π / 2 * (1 / 2) = π / 4 by ring, cos_pi_div_four, div_pow, sq_sqrt (by norm_num)]
  norm_num

/-- `C59_range`, `C59_shape`: order 5. -/
example : ∃ w, halfSidedHann (5 : ℕ) = .ok w ∧ w.length = 6 ∧ (∀ x ∈ w, 0 < x ∧ x ≤ 1) ∧ w.getD 3 0 = 1 ∧ w.getD 5 0 < w.getD 4 0 := by
  obtain ⟨w, h, h1, h2⟩ := C59_range 5 (by norm_num)
  obtain ⟨w', h', h3, h4⟩ := C59_shape 5 (by norm_num)
  rw [h] at h'
  cases h'
  exact ⟨w, h, h1, h2, h3 3 (by norm_num), h4 4 (by norm_num) (by norm_num)⟩

/-- **C59**: orders below three are rejected. -/
theorem C59_reject (N : ℤ) (hN : N < 3) : halfSidedHann N = .error .assertionError := by
  unfold halfSidedHann; rw [if_neg (by omega)]

example : (-4 : ℤ) < 3 ∧ (2 : ℤ) < 3 := by norm_num

/-- The window of order 3. -/
example : halfSidedHann (3 : ℕ) = .ok [1, 1, 1, 0.5] := by
  rw [half_hann_eq 3 le_rfl]
  norm_num [List.replicate, List.range_succ, cos_pi_div_two]

end Verif.Props
