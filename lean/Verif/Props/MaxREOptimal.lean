import Verif.Props.EnergyVector
import Verif.Props.MaxREThreshold

/-! The weights of `max_rE_weights` compared with all other weights: C173. -/

namespace Verif.Props
open Real Verif.Sph Verif.Utils

/-- The part of the energy of a pattern in its highest order. -/
noncomputable def topShare (N : ℕ) (w : ℕ → ℝ) : ℝ := (2 * (N : ℝ) + 1) * w N ^ 2 / rEDen N w

/-- What any weights lose against `x`, exactly. -/
theorem rE_defect (N : ℕ) (x : ℝ) (hpos : ∀ n ≤ N, 0 < evalLegendre n x) (w : ℕ → ℝ) :
    x * rEDen N w - (N + 1) * evalLegendre (N + 1) x / evalLegendre N x * w N ^ 2 - rENum N w =
      ∑ n ∈ Finset.range N, ((n : ℝ) + 1) / (evalLegendre n x * evalLegendre (n + 1) x) * (evalLegendre (n + 1) x * w n - evalLegendre n x * w (n + 1)) ^ 2 := by
  have hb : ∀ n ∈ Finset.range (N + 1), x * ((2 * (n : ℝ) + 1) * w n ^ 2)
      = ((n : ℝ) + 1) * evalLegendre (n + 1) x / evalLegendre n x * w n ^ 2 + n * evalLegendre (n - 1) x / evalLegendre n x * w n ^ 2 := by
    intro n hn
    have h0 := hpos n (by have := Finset.mem_range.1 hn; omega)
    have := evalLegendre_bonnet n x
    rw [← add_mul, ← add_div, ← this]
    field_simp
  unfold rEDen rENum
  rw [Finset.mul_sum, Finset.sum_congr rfl hb]
  rw [Finset.sum_add_distrib, Finset.sum_range_succ,
    Finset.sum_range_succ' (fun n : ℕ => (n : ℝ) * evalLegendre (n - 1) x / evalLegendre n x * w n ^ 2)]
  simp only [Nat.cast_zero, zero_mul, zero_div, add_zero, Nat.add_sub_cancel]
  rw [add_right_comm, add_sub_cancel_right, ← Finset.sum_add_distrib, ← Finset.sum_sub_distrib]
  refine Finset.sum_congr rfl fun n hn => ?_
  have hn' := Finset.mem_range.1 hn
  have p0 := hpos n (by omega)
  have p1 := hpos (n + 1) (by omega)
  push_cast
  field_simp
  ring

theorem rENum_abs (N : ℕ) (w : ℕ → ℝ) : |rENum N w| ≤ rENum N fun n => |w n| := by
  unfold rENum
  refine (Finset.abs_sum_le_sum_abs _ _).trans (Finset.sum_le_sum fun n _ => le_of_eq ?_)
  rw [abs_mul, abs_mul, abs_of_nonneg (by positivity : (0 : ℝ) ≤ 2 * ((n : ℝ) + 1))]

theorem rEDen_abs (N : ℕ) (w : ℕ → ℝ) : rEDen N (fun n => |w n|) = rEDen N w := by
  unfold rEDen
  simp only [sq_abs]

theorem topShare_abs (N : ℕ) (w : ℕ → ℝ) : topShare N (fun n => |w n|) = topShare N w := by
  unfold topShare
  rw [rEDen_abs, sq_abs]

/-- **C173** Up to order 1224 (where all weights are positive, `C111_positive_iff`) `max_rE_weights(N)` has, whatever the accuracy of the rule for the angle, the longest energy vector of all weights with the same part of the energy in the highest order: on a design of
strength `2N+1` the magnitude that `r_E` returns for any other weights `u` exceeds that of `max_rE_weights` by no more than `(N+1)/(2N+1) P_(N+1)(cos θ)/P_N(cos θ)` times the difference of these parts, and weights with the same part and the same magnitude are, up to signs, a multiple of `max_rE_weights`. -/
theorem C173_maxre {Q t N : ℕ} (hN : N ≤ 1224) {azi zen : Fin Q → ℝ} (hd : IsTDesign t azi zen) (ht : 2 * N + 1 ≤ t) (a z : ℝ) (hz : z ∈ Set.Icc 0 π) (g : Fin Q → ℝ)
    (hg : ∀ q, bandlimitedDirac N (angleBetween (dirVec (azi q) (zen q)) (dirVec a z)) (some (maxREWeights N)) = .ok (g q)) :
    ∃ (w : ℕ → ℝ) (c : ℝ), maxREWeights N = (List.range (N + 1)).map w ∧
      c = (N + 1) / (2 * N + 1) * evalLegendre (N + 1) (cos (137.9 * (π / 180) / (N + 1.51))) / w N ∧ ∀ (u : ℕ → ℝ) (k : ℕ), k ≤ N → u k ≠ 0 → ∀ (a' z' : ℝ), z' ∈ Set.Icc 0 π → ∀ g' : Fin Q → ℝ,
      (∀ q, bandlimitedDirac N (angleBetween (dirVec (azi q) (zen q)) (dirVec a' z')) (some ((List.range (N + 1)).map u)) = .ok (g' q)) →
      (rE (fun q => dirVec (azi q) (zen q)) g').2 ≤ (rE (fun q => dirVec (azi q) (zen q)) g).2 + c * (topShare N w - topShare N u) ∧
      (topShare N u = topShare N w → (rE (fun q => dirVec (azi q) (zen q)) g').2 = (rE (fun q => dirVec (azi q) (zen q)) g).2 → ∃ r : ℝ, 0 < r ∧ ∀ n ≤ N, |u n| = r * w n) := by
  obtain ⟨x, hx⟩ : ∃ x, x = cos (137.9 * (π / 180) / (N + 1.51)) := ⟨_, rfl⟩
  have hw : maxREWeights N = (List.range (N + 1)).map fun n => evalLegendre n x := by rw [hx]; rfl
  have hpos : ∀ n ≤ N, 0 < evalLegendre n x := fun n hn =>
    ((C111_positive_iff N).1.2 hN) _ (by rw [hw]; exact List.mem_map.2 ⟨n, List.mem_range.2 (by omega), rfl⟩)
  obtain ⟨w, hwd⟩ : ∃ w : ℕ → ℝ, w = fun n => evalLegendre n x := ⟨_, rfl⟩
  have hwv : ∀ n, w n = evalLegendre n x := fun n => by rw [hwd]
  rw [← hwd] at hw
  have hN0 : (0 : ℝ) < 2 * (N : ℝ) + 1 := by positivity
  obtain ⟨c, hcd⟩ : ∃ c : ℝ, c = (N + 1) * evalLegendre (N + 1) x / evalLegendre N x / (2 * (N : ℝ) + 1) := ⟨_, rfl⟩
  refine ⟨w, c, hw, by rw [hcd, hwv, ← hx]; field_simp, fun u k hk hu a' z' hz' g' hg' => ?_⟩
  have hw0 : w 0 ≠ 0 := by rw [hwv]; exact (hpos 0 (Nat.zero_le _)).ne'
  have hden := rEDen_pos N w 0 (Nat.zero_le _) hw0
  have hdenu := rEDen_pos N u k hk hu
  rw [hw] at hg
  rw [C110_direction hd ht w 0 (Nat.zero_le _) hw0 a z hz g hg, C110_direction hd ht u k hk hu a' z' hz' g' hg']
  show |rENum N u / rEDen N u| ≤ |rENum N w / rEDen N w| + _ ∧ (_ → |rENum N u / rEDen N u| = |rENum N w / rEDen N w| → _)
  -- the length of a pattern in terms of its share and its defect
  have len : ∀ v : ℕ → ℝ, 0 < rEDen N v → rENum N v / rEDen N v = x - c * topShare N v -
      (∑ n ∈ Finset.range N, ((n : ℝ) + 1) / (evalLegendre n x * evalLegendre (n + 1) x) * (evalLegendre (n + 1) x * v n - evalLegendre n x * v (n + 1)) ^ 2) / rEDen N v := by
    intro v hv
    rw [← rE_defect N x hpos v, hcd]
    unfold topShare
    have := hpos N le_rfl
    field_simp
    ring
  have hlw := len w hden
  rw [Finset.sum_eq_zero fun n _ => by rw [hwv, hwv]; ring, zero_div, sub_zero] at hlw
  have hlu := len (fun n => |u n|) (by rw [rEDen_abs]; exact hdenu)
  rw [rEDen_abs, topShare_abs] at hlu
  have hnn : ∀ n ∈ Finset.range N, 0 ≤ ((n : ℝ) + 1) / (evalLegendre n x * evalLegendre (n + 1) x) * (evalLegendre (n + 1) x * |u n| - evalLegendre n x * |u (n + 1)|) ^ 2 := by
    intro n hn
    have hn' := Finset.mem_range.1 hn
    have p0 := hpos n (by omega)
    have p1 := hpos (n + 1) (by omega)
    positivity
  have hS := div_nonneg (Finset.sum_nonneg hnn) hdenu.le
  have habs : |rENum N u / rEDen N u| ≤ rENum N (fun n => |u n|) / rEDen N u := by
    rw [abs_div, abs_of_pos hdenu]
    exact div_le_div_of_nonneg_right (rENum_abs N u) hdenu.le
  have hw1 : 0 ≤ rENum N w / rEDen N w := by
    refine div_nonneg (Finset.sum_nonneg fun n hn => ?_) hden.le
    have hn' := Finset.mem_range.1 hn
    have p0 := hpos n (by omega)
    have p1 := hpos (n + 1) (by omega)
    rw [hwv, hwv]
    positivity
  rw [abs_of_nonneg hw1]
  constructor
  · linarith [mul_sub c (topShare N w) (topShare N u)]
  · intro hsh heq
    rw [hsh] at hlu
    have hz0 : (∑ n ∈ Finset.range N, ((n : ℝ) + 1) / (evalLegendre n x * evalLegendre (n + 1) x) * (evalLegendre (n + 1) x * |u n| - evalLegendre n x * |u (n + 1)|) ^ 2) / rEDen N u = 0 := by linarith
    have hz1 := (Finset.sum_eq_zero_iff_of_nonneg hnn).1 ((div_eq_zero_iff.1 hz0).resolve_right hdenu.ne')
    have hstep : ∀ n ≤ N, |u n| = |u 0| * w n := by
      intro n
      induction n with
      | zero => intro _; rw [hwv, evalLegendre_zero, mul_one]
      | succ n ih =>
        intro hn
        have p0 := hpos n (by omega)
        have p1 := hpos (n + 1) (by omega)
        have h2 := hz1 n (Finset.mem_range.2 (by omega))
        have h3 : evalLegendre (n + 1) x * |u n| - evalLegendre n x * |u (n + 1)| = 0 := by
          have h4 : ((n : ℝ) + 1) / (evalLegendre n x * evalLegendre (n + 1) x) ≠ 0 := by positivity
          exact pow_eq_zero_iff two_ne_zero |>.1 ((mul_eq_zero.1 h2).resolve_left h4)
        rw [ih (by omega), hwv] at h3
        rw [hwv]
        have : evalLegendre n x * |u (n + 1)| = evalLegendre n x * (|u 0| * evalLegendre (n + 1) x) := by linarith
        exact mul_left_cancel₀ p0.ne' this
    refine ⟨|u 0|, ?_, hstep⟩
    refine abs_pos.2 fun h0 => hu ?_
    have := hstep k hk
    rw [h0, abs_zero, zero_mul] at this
    exact abs_eq_zero.1 this

/-- The eight corners of a cube at first order: weights of one and `r` with `r` the last of the `max_rE_weights` up to its sign reach no longer energy vector; `(1, 1)` has a larger part in the first order. -/
example : ∃ (azi zen : Fin 8 → ℝ) (g : Fin 8 → ℝ) (w : ℕ → ℝ) (c : ℝ), (∀ q, bandlimitedDirac 1 (angleBetween (dirVec (azi q) (zen q)) (dirVec 1 1)) (some (maxREWeights 1)) = .ok (g q)) ∧
    1 / 2 ≤ (rE (fun q => dirVec (azi q) (zen q)) g).2 + c * (topShare 1 w - 3 / 4) := by
  obtain ⟨azi, zen, hd⟩ := cube_design
  have h1 : (1 : ℝ) ∈ Set.Icc 0 π := ⟨zero_le_one, by have := pi_gt_three; linarith⟩
  obtain ⟨g, hg⟩ : ∃ g : Fin 8 → ℝ, ∀ q, bandlimitedDirac 1 (angleBetween (dirVec (azi q) (zen q)) (dirVec 1 1)) (some (maxREWeights 1)) = .ok (g q) := ⟨_, fun q => rfl⟩
  obtain ⟨w, c, -, -, h⟩ := C173_maxre (N := 1) (by norm_num) hd (by norm_num) 1 1 h1 g hg
  refine ⟨azi, zen, g, w, c, hg, ?_⟩
  have h2 := (h (fun _ => 1) 0 (by norm_num) one_ne_zero 1 1 h1 _ fun q => rfl).1
  rw [C110_direction hd (N := 1) (by norm_num) (fun _ => 1) 0 (by norm_num) one_ne_zero 1 1 h1 _ fun q => rfl] at h2
  have e1 : |rENum 1 (fun _ => 1) / rEDen 1 (fun _ => 1)| = 1 / 2 := by norm_num [rENum, rEDen, Finset.sum_range_succ]
  have e2 : topShare 1 (fun _ => 1) = 3 / 4 := by norm_num [topShare, rEDen, Finset.sum_range_succ]
  rw [e2] at h2
  simpa only [e1] using h2

end Verif.Props
