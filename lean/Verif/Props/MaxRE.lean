import Verif.Proofs.LegendreBound

/-!
C111 (values of `max_rE_weights`: start at one, decrease, bounds of the Legendre polynomials).
-/

namespace Verif.Props
open Real Verif.Sph

/-- One refinement step: an upper bound of all Legendre polynomials gives a lower bound. -/
theorem legendre_refine_lower (x : ℝ) (hx : x ≤ 1) (F G : ℕ → ℝ) (h0 : F 0 = 1) (h1 : F 0 - F 1 = (1 - x) * G 0)
    (hr : ∀ n : ℕ, ((n : ℝ) + 2) * (F (n + 1) - F (n + 2)) - (n + 1) * (F n - F (n + 1)) = (1 - x) * ((2 * n + 3) * G (n + 1)))
    (hG : ∀ n, evalLegendre n x ≤ G n) (n : ℕ) : F n ≤ evalLegendre n x := by
  have hs : ∀ n : ℕ, (1 - x) * ∑ k ∈ Finset.range (n + 1), (2 * (k : ℝ) + 1) * G k = (n + 1) * (F n - F (n + 1)) := by
    intro n
    induction n with
    | zero => simp [h1]
    | succ n ih =>
      rw [Finset.sum_range_succ, mul_add, ih]
      have := hr n
      push_cast
      rw [show 2 * ((n : ℝ) + 1) + 1 = 2 * n + 3 by ring, ← this]
      ring
  induction n with
  | zero => rw [h0, evalLegendre_zero]
  | succ n ih =>
    have e := sum_legendre n x
    have hle : (1 - x) * ∑ k ∈ Finset.range (n + 1), (2 * (k : ℝ) + 1) * evalLegendre k x ≤ (1 - x) * ∑ k ∈ Finset.range (n + 1), (2 * (k : ℝ) + 1) * G k :=
      mul_le_mul_of_nonneg_left (Finset.sum_le_sum fun k _ => mul_le_mul_of_nonneg_left (hG k) (by positivity)) (by linarith)
    rw [e, hs n] at hle
    have : (0 : ℝ) < n + 1 := by positivity
    have := le_of_mul_le_mul_left hle this
    linarith

/-- The same with the inequalities reversed. -/
theorem legendre_refine_upper (x : ℝ) (hx : x ≤ 1) (F G : ℕ → ℝ) (h0 : F 0 = 1) (h1 : F 0 - F 1 = (1 - x) * G 0)
    (hr : ∀ n : ℕ, ((n : ℝ) + 2) * (F (n + 1) - F (n + 2)) - (n + 1) * (F n - F (n + 1)) = (1 - x) * ((2 * n + 3) * G (n + 1)))
    (hG : ∀ n, G n ≤ evalLegendre n x) (n : ℕ) : evalLegendre n x ≤ F n := by
  have hs : ∀ n : ℕ, (1 - x) * ∑ k ∈ Finset.range (n + 1), (2 * (k : ℝ) + 1) * G k = (n + 1) * (F n - F (n + 1)) := by
    intro n
    induction n with
    | zero => simp [h1]
    | succ n ih =>
      rw [Finset.sum_range_succ, mul_add, ih]
      have := hr n
      push_cast
      rw [show 2 * ((n : ℝ) + 1) + 1 = 2 * n + 3 by ring, ← this]
      ring
  induction n with
  | zero => rw [h0, evalLegendre_zero]
  | succ n ih =>
    have e := sum_legendre n x
    have hle : (1 - x) * ∑ k ∈ Finset.range (n + 1), (2 * (k : ℝ) + 1) * G k ≤ (1 - x) * ∑ k ∈ Finset.range (n + 1), (2 * (k : ℝ) + 1) * evalLegendre k x :=
      mul_le_mul_of_nonneg_left (Finset.sum_le_sum fun k _ => mul_le_mul_of_nonneg_left (hG k) (by positivity)) (by linarith)
    rw [e, hs n] at hle
    have : (0 : ℝ) < n + 1 := by positivity
    have := le_of_mul_le_mul_left hle this
    linarith

/-- Partial sums of the expansion of `P_n(1-2t)` in powers of `t`. -/
noncomputable def legU (t : ℝ) (n : ℕ) : ℝ := 1 - n * (n + 1) * t + n * (n + 1) * (n * (n + 1) - 2) * t ^ 2 / 4
noncomputable def legL (t : ℝ) (n : ℕ) : ℝ := legU t n - n * (n + 1) * (n * (n + 1) - 2) * (n * (n + 1) - 6) * t ^ 3 / 36
noncomputable def legV (t : ℝ) (n : ℕ) : ℝ :=
  legL t n + n * (n + 1) * (n * (n + 1) - 2) * (n * (n + 1) - 6) * (n * (n + 1) - 12) * t ^ 4 / 576

theorem legendre_bounds (x : ℝ) (hx : |x| ≤ 1) (n : ℕ) :
    legL ((1 - x) / 2) n ≤ evalLegendre n x ∧ evalLegendre n x ≤ legV ((1 - x) / 2) n := by
  have hx1 : x ≤ 1 := (abs_le.1 hx).2
  have hU : ∀ n, evalLegendre n x ≤ legU ((1 - x) / 2) n :=
    legendre_refine_upper x hx1 _ (fun n => 1 - (1 - x) * (n * (n + 1) / 2)) (by simp [legU]) (by simp [legU]; ring)
      (fun n => by simp only [legU]; push_cast; ring) (fun n => evalLegendre_lower n x hx)
  have hL : ∀ n, legL ((1 - x) / 2) n ≤ evalLegendre n x :=
    legendre_refine_lower x hx1 _ (legU ((1 - x) / 2)) (by simp [legU, legL]) (by simp [legU, legL]; ring)
      (fun n => by simp only [legU, legL]; push_cast; ring) hU
  refine ⟨hL n, legendre_refine_upper x hx1 _ (legL ((1 - x) / 2)) (by simp [legU, legL, legV]) (by simp [legU, legL, legV]; ring)
      (fun n => by simp only [legU, legL, legV]; push_cast; ring) hL n⟩

/-! ### C111 -/

/-- **C111** `max_rE_weights(N)` has `N+1` entries, begins with one, and every next weight is strictly smaller. -/
theorem C111_decreasing (N : ℕ) : (maxREWeights N).length = N + 1 ∧ (maxREWeights N).getD 0 0 = 1 ∧
    ∀ n, n + 1 ≤ N → (maxREWeights N).getD (n + 1) 0 < (maxREWeights N).getD n 0 := by
  refine ⟨by simp [maxREWeights], by simp [maxREWeights, evalLegendre_zero], fun n hn => ?_⟩
  set θ := 137.9 * (π / 180) / ((N : ℝ) + 1.51) with hθ
  have e : ∀ k ≤ N, (maxREWeights N).getD k 0 = evalLegendre k (cos θ) := by
    intro k hk
    simp [maxREWeights, List.getElem?_range (Nat.lt_succ_of_le hk), hθ]
  rw [e n (by omega), e (n + 1) hn]
  have h1 : 1 - cos θ ≤ θ ^ 2 / 2 := by have := one_sub_sq_div_two_le_cos (x := θ); linarith
  have hn0 : (0 : ℝ) ≤ n := Nat.cast_nonneg n
  have hnN : (n : ℝ) + 1 ≤ N := by exact_mod_cast hn
  have hpi : π < 3.15 := pi_lt_d2
  have hθ2 : θ * (N + 1.51) = 137.9 * (π / 180) := by rw [hθ]; field_simp
  have hp : 0 < 137.9 * (π / 180) := by positivity
  have hN : (0 : ℝ) < N + 1.51 := by linarith
  have hθ0 : 0 < θ := by rw [hθ]; positivity
  have hθpi : θ < π := by
    rw [hθ, div_lt_iff₀ hN]; nlinarith [pi_pos]
  have hc : cos θ < 1 := by
    have := cos_lt_cos_of_nonneg_of_le_pi le_rfl hθpi.le hθ0
    rwa [cos_zero] at this
  have hsq : θ ^ 2 * (N + 1.51) ^ 2 < 6.25 := by
    have : θ ^ 2 * (N + 1.51) ^ 2 = (137.9 * (π / 180)) ^ 2 := by rw [← hθ2]; ring
    rw [this]; nlinarith
  have hlt : θ ^ 2 * (n * (n + 2)) < 8 := by
    have : θ ^ 2 * (n * (n + 2)) ≤ θ ^ 2 * (N + 1.51) ^ 2 := mul_le_mul_of_nonneg_left (by nlinarith) (sq_nonneg θ)
    linarith
  have hlow := sum_legendre_lower n (cos θ) (abs_cos_le_one θ)
  have hS : 0 < ∑ k ∈ Finset.range (n + 1), (2 * (k : ℝ) + 1) * evalLegendre k (cos θ) := by
    refine lt_of_lt_of_le ?_ hlow
    have : (1 - cos θ) * (n * (n + 2) / 4) ≤ θ ^ 2 / 2 * (n * (n + 2) / 4) := mul_le_mul_of_nonneg_right h1 (by positivity)
    have : 0 < 1 - (1 - cos θ) * (n * (n + 2) / 4) := by nlinarith
    positivity
  have hid := sum_legendre n (cos θ)
  have : 0 < (1 - cos θ) * ∑ k ∈ Finset.range (n + 1), (2 * (k : ℝ) + 1) * evalLegendre k (cos θ) := mul_pos (by linarith) hS
  rw [hid] at this
  have := (mul_pos_iff_of_pos_left (show (0 : ℝ) < n + 1 by positivity)).1 this
  linarith

/-- Bounds of `(1 - cos θ)/2`. -/
theorem half_versine (N : ℕ) (lo hi : ℝ) (hlo : lo ≤ (137.9 * 3.141592 / 180 / 2 / (N + 1.51)) ^ 2) (hhi : (137.9 * 3.141593 / 180 / 2 / (N + 1.51)) ^ 2 ≤ hi)
    (h1 : hi ≤ 1) (hN1 : 1 ≤ N) : lo - lo * hi * 5 / 12 ≤ (1 - cos (137.9 * (π / 180) / (N + 1.51))) / 2 ∧ (1 - cos (137.9 * (π / 180) / (N + 1.51))) / 2 ≤ hi := by
  set θ := 137.9 * (π / 180) / ((N : ℝ) + 1.51) with hθ
  have hN : (0 : ℝ) < N + 1.51 := by positivity
  set T := (θ / 2) ^ 2 with hT
  have e : θ / 2 = 137.9 * π / 180 / 2 / (N + 1.51) := by rw [hθ]; field_simp
  have hTlo : lo ≤ T := by
    refine hlo.trans ?_
    rw [hT, e]
    have := pi_gt_d6
    gcongr
  have hThi : T ≤ hi := by
    refine le_trans ?_ hhi
    rw [hT, e]
    have := pi_lt_d6
    have := pi_pos
    gcongr
  have hT0 : 0 ≤ T := sq_nonneg _
  have hθT : θ ^ 2 = 4 * T := by rw [hT]; ring
  constructor
  · have hθ0 : 0 ≤ θ := by rw [hθ]; positivity
    have hθ1 : |θ| ≤ 1 := by
      rw [abs_of_nonneg hθ0, hθ, div_le_one hN]
      have : (1 : ℝ) ≤ N := by exact_mod_cast hN1
      have := pi_lt_d6
      linarith
    have hc : cos θ ≤ 1 - θ ^ 2 / 2 + θ ^ 4 * (5 / 96) := by
      have := (abs_le.1 (cos_bound hθ1)).2
      rw [abs_of_nonneg hθ0] at this
      linarith
    have : θ ^ 4 = 16 * T ^ 2 := by rw [show θ ^ 4 = (θ ^ 2) ^ 2 by ring, hθT]; ring
    rw [this, hθT] at hc
    have h3 : lo - lo * hi * 5 / 12 ≤ T - T * hi * 5 / 12 := by nlinarith
    have h4 : T - T * hi * 5 / 12 ≤ T - T ^ 2 * 5 / 12 := by nlinarith
    linarith
  · have := one_sub_sq_div_two_le_cos (x := θ)
    rw [hθT] at this
    linarith

theorem maxre_get (N k : ℕ) (hk : k ≤ N) : (maxREWeights N).getD k 0 = evalLegendre k (cos (137.9 * (π / 180) / ((N : ℝ) + 1.51))) := by
  simp [maxREWeights, List.getElem?_range (Nat.lt_succ_of_le hk)]

theorem maxre_antitone (N : ℕ) (n : ℕ) (hn : n ≤ N) : (maxREWeights N).getD N 0 ≤ (maxREWeights N).getD n 0 := by
  obtain ⟨k, rfl⟩ := Nat.exists_eq_add_of_le hn
  have : ∀ j ≤ k, (maxREWeights (n + k)).getD (n + j) 0 ≤ (maxREWeights (n + k)).getD n 0 := by
    intro j
    induction j with
    | zero => intro _; exact le_rfl
    | succ j ih => intro hj; exact ((C111_decreasing (n + k)).2.2 (n + j) (by omega)).le.trans (ih (by omega))
  exact this k le_rfl

/-- Low orders; all orders in `C111_positive_iff`. -/
theorem maxre_positive_low (N : ℕ) (hN : N ≤ 7) (n : ℕ) (hn : n ≤ N) : 0 < (maxREWeights N).getD n 0 := by
  refine lt_of_lt_of_le ?_ (maxre_antitone N n hn)
  rcases Nat.eq_zero_or_pos N with rfl | h0
  · rw [(C111_decreasing 0).2.1]; exact one_pos
  rw [maxre_get N N le_rfl]
  refine lt_of_lt_of_le ?_ (legendre_bounds _ (abs_cos_le_one _) N).1
  set lo := (137.9 * 3.141592 / 180 / 2 / ((N : ℝ) + 1.51)) ^ 2 with hlo
  set hi := (137.9 * 3.141593 / 180 / 2 / ((N : ℝ) + 1.51)) ^ 2 with hhi
  have hN1 : (1 : ℝ) ≤ N := by exact_mod_cast h0
  have hhi1 : hi ≤ 1 := by
    rw [hhi]
    refine pow_le_one₀ (by positivity) ?_
    rw [div_le_one (by positivity)]
    norm_num
    linarith
  obtain ⟨h1, h2⟩ := half_versine N lo hi le_rfl le_rfl hhi1 h0
  set t := (1 - cos (137.9 * (π / 180) / ((N : ℝ) + 1.51))) / 2 with ht
  have hl0 : 0 ≤ lo - lo * hi * 5 / 12 := by
    have : 0 ≤ lo := sq_nonneg _
    nlinarith
  have ha2 : (0 : ℝ) ≤ N * (N + 1) * (N * (N + 1) - 2) := by
    rw [show (N : ℝ) * (N + 1) * (N * (N + 1) - 2) = N * (N + 1) * ((N - 1) * (N + 2)) by ring]
    have : (0 : ℝ) ≤ N - 1 := by linarith
    positivity
  have ha3 : (0 : ℝ) ≤ N * (N + 1) * (N * (N + 1) - 2) * (N * (N + 1) - 6) := by
    rcases Nat.lt_or_ge N 2 with h | h
    · have : N = 1 := by omega
      subst this; norm_num
    · have h2 : (2 : ℝ) ≤ N := by exact_mod_cast h
      rw [show (N : ℝ) * (N + 1) - 6 = (N - 2) * (N + 3) by ring]
      have : (0 : ℝ) ≤ N - 2 := by linarith
      positivity
  have hb : 0 < 1 - N * (N + 1) * hi + N * (N + 1) * (N * (N + 1) - 2) * (lo - lo * hi * 5 / 12) ^ 2 / 4
      - N * (N + 1) * (N * (N + 1) - 2) * (N * (N + 1) - 6) * hi ^ 3 / 36 := by
    rw [hlo, hhi]
    clear_value t
    clear hlo hhi ht h1 h2 hl0 ha2 ha3 hhi1 hN1
    interval_cases N <;> norm_num
  have ht0 : 0 ≤ t := hl0.trans h1
  have e1 : (N : ℝ) * (N + 1) * t ≤ N * (N + 1) * hi := by gcongr
  have e2 : (N : ℝ) * (N + 1) * (N * (N + 1) - 2) * (lo - lo * hi * 5 / 12) ^ 2 ≤ N * (N + 1) * (N * (N + 1) - 2) * t ^ 2 :=
    mul_le_mul_of_nonneg_left (pow_le_pow_left₀ hl0 h1 2) ha2
  have e3 : (N : ℝ) * (N + 1) * (N * (N + 1) - 2) * (N * (N + 1) - 6) * t ^ 3 ≤ N * (N + 1) * (N * (N + 1) - 2) * (N * (N + 1) - 6) * hi ^ 3 :=
    mul_le_mul_of_nonneg_left (pow_le_pow_left₀ ht0 h2 3) ha3
  unfold legL legU
  linarith

end Verif.Props
