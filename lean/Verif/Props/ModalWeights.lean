import Verif.Proofs.LegendreBound

/-!
C16, C17: modal weights.
-/

namespace Verif.Sph
open Real

/-- Specification: amplitude with which a beam of modal weights `w` passes a plane wave from its steering direction,
`Σ_n (2n+1)/(4π) w_n`. -/
noncomputable def steeringGain (w : List ℝ) : ℝ := ∑ n : Fin w.length, (2 * (n : ℝ) + 1) / (4 * π) * w[n]

/-- `steeringGain` is what its name says: the SH beam with these weights, steered to a direction, evaluated on a plane wave from
that direction. -/
theorem C16_steering_meaning (N : ℕ) (w : ℕ → ℝ) (azi zen : ℝ) (hz : zen ∈ Set.Icc 0 π) :
    ∑ q, repVec N w q * shVec N azi zen q * shVec N azi zen q = steeringGain ((List.range (N + 1)).map w) := by
  have h := C18_kernel N w azi zen azi zen hz hz
  have hang : cos (Utils.angleBetween (dirVec azi zen) (dirVec azi zen)) = 1 := by
    rw [cos_angleBetween]
    simp [dirVec, dotProduct, Fin.sum_univ_three]
    have := sin_sq_add_cos_sq azi; have := sin_sq_add_cos_sq zen; nlinarith
  unfold bandlimitedDirac at h
  rw [if_pos (by simp)] at h
  have h2 := Except.ok.inj h
  rw [hang] at h2
  have e : ∑ q, repVec N w q * shVec N azi zen q * shVec N azi zen q = ∑ q, shVec N azi zen q * repVec N w q * shVec N azi zen q :=
    Finset.sum_congr rfl fun q _ => by ring
  rw [e, ← h2, steeringGain, Finset.sum_range, Fintype.sum_equiv (finCongr (by simp : ((List.range (N + 1)).map w).length = N + 1))]
  intro n
  simp [evalLegendre_one, List.getElem?_range (show n.val < N + 1 from by have := n.2; simpa using this)]
  ring

/-- `C16_steering_meaning` for the weights 1, 1/2 and a direction above the horizon. -/
example : ∑ q, repVec 1 (fun n => 1 / (n + 1)) q * shVec 1 2 1 q * shVec 1 2 1 q = steeringGain ((List.range (1 + 1)).map fun n => (1 / (n + 1) : ℝ)) :=
  C16_steering_meaning 1 _ 2 1 ⟨zero_le_one, by have := pi_gt_three; linarith⟩

theorem foldl_gain : ∀ (w : List ℝ) (s : ℕ) (a : ℝ),
    (w.zipIdx s).foldl (fun a p => a + (2 * (p.2 : ℝ) + 1) / (4 * π) * p.1) a
      = a + ∑ n : Fin w.length, (2 * ((s + n : ℕ) : ℝ) + 1) / (4 * π) * w[n]
  | [], s, a => by simp
  | x :: w, s, a => by
    rw [List.zipIdx_cons, List.foldl_cons, foldl_gain w (s + 1)]
    simp only [List.length_cons]
    rw [Fin.sum_univ_succ, add_assoc]
    congr 1
    congr 1
    refine Finset.sum_congr rfl fun n _ => ?_
    have : s + 1 + n.val = s + (Fin.succ n).val := by simp; ring
    rw [this]; rfl

theorem unityGain_eq (w : List ℝ) : unityGain w = w.map (· / steeringGain w) := by
  unfold unityGain
  have h := foldl_gain w 0 0
  simp only [zero_add] at h
  simp only [h]
  rfl

theorem steeringGain_scale (w : List ℝ) (a : ℝ) : steeringGain (w.map (a * ·)) = a * steeringGain w := by
  unfold steeringGain
  rw [Finset.mul_sum, Fintype.sum_equiv (finCongr (by simp : (w.map (a * ·)).length = w.length))]
  intro n
  simp; ring

theorem steeringGain_div (w : List ℝ) (a : ℝ) : steeringGain (w.map (· / a)) = steeringGain w / a := by
  have := steeringGain_scale w a⁻¹
  rw [div_eq_inv_mul, ← this]
  simp only [div_eq_inv_mul]

/-- C16: `unity_gain` gives unit amplitude in steering direction. -/
theorem C16_unityGain (w : List ℝ) (hw : steeringGain w ≠ 0) : steeringGain (unityGain w) = 1 := by
  rw [unityGain_eq, steeringGain_div, div_self hw]

/-- C16: `unity_gain` is idempotent and does not depend on a common factor of the weights. -/
theorem C16_unityGain_idem_scale (w : List ℝ) (hw : steeringGain w ≠ 0) :
    unityGain (unityGain w) = unityGain w ∧ ∀ a : ℝ, a ≠ 0 → unityGain (w.map (a * ·)) = unityGain w := by
  constructor
  · rw [unityGain_eq (unityGain w), C16_unityGain w hw]; simp
  · intro a ha
    rw [unityGain_eq, unityGain_eq, steeringGain_scale, List.map_map]
    congr 1
    funext x
    simp only [Function.comp]
    field_simp

example : steeringGain (unityGain [1, 2, -0.5]) = 1 := by
  apply C16_unityGain
  simp only [steeringGain, List.length_cons, List.length_nil, Fin.sum_univ_succ]
  simp
  have := pi_pos
  intro h; field_simp at h; norm_num at h

theorem steeringGain_range (N : ℕ) (c : ℕ → ℝ) :
    steeringGain ((List.range (N + 1)).map c) = (∑ n ∈ Finset.range (N + 1), (2 * (n : ℝ) + 1) * c n) / (4 * π) := by
  unfold steeringGain
  rw [Finset.sum_range, Finset.sum_div,
    Fintype.sum_equiv (finCongr (by simp : ((List.range (N + 1)).map c).length = N + 1))]
  intro n
  simp; ring

/-- C16: hyper-cardioid weights. -/
theorem C16_hypercardioid (N : ℕ) : steeringGain (hypercardioidWeights N) = 1 := by
  have e : hypercardioidWeights N = (List.range (N + 1)).map (fun _ => (4 * π) / ((N : ℝ) + 1) ^ 2) := by
    unfold hypercardioidWeights
    rw [List.map_const', List.length_range]
  rw [e, steeringGain_range, ← Finset.sum_mul, sum_odd]
  push_cast
  field_simp

theorem cardioidWeights_eq (N : ℕ) : cardioidWeights N = (List.range (N + 1)).map (fun n => 4 * π * cb N n) := by
  unfold cardioidWeights
  rw [List.map_map]
  refine List.map_congr_left fun n hn => ?_
  rw [List.mem_range] at hn
  simp only [Function.comp, cb]
  rw [if_pos (by omega)]

/-- C16: cardioid weights. -/
theorem C16_cardioid (N : ℕ) : steeringGain (cardioidWeights N) = 1 := by
  rw [cardioidWeights_eq, steeringGain_range]
  have e : ∀ n ∈ Finset.range (N + 1), (2 * (n : ℝ) + 1) * (4 * π * cb N n) = 4 * π * ((2 * (n : ℝ) + 1) * cb N n) :=
    fun n _ => by ring
  rw [Finset.sum_congr rfl e, ← Finset.mul_sum, cb_sum]
  field_simp

theorem unitAmp_eq (N : ℕ) (c : ℕ → ℝ) :
    unitAmp N ((List.range (N + 1)).map c) true
      = .ok (((List.range (N + 1)).map c).map (· / steeringGain ((List.range (N + 1)).map c))) ∧
    unitAmp N ((List.range (N + 1)).map c) false = .ok ((List.range (N + 1)).map c) := by
  constructor
  · unfold unitAmp
    simp only [if_true]
    unfold bandlimitedDirac
    rw [if_pos (by simp)]
    have : (∑ n ∈ Finset.range (N + 1), ((some ((List.range (N + 1)).map c)).getD (List.replicate (N + 1) 1)).getD n 0
        * (2 * (n : ℝ) + 1) / (4 * π) * evalLegendre n (cos 0)) = steeringGain ((List.range (N + 1)).map c) := by
      rw [steeringGain_range, Finset.sum_div]
      refine Finset.sum_congr rfl fun n hn => ?_
      rw [Finset.mem_range] at hn
      rw [cos_zero, evalLegendre_one]
      simp [List.getElem?_range hn]; ring
    rw [this]; rfl
  · unfold unitAmp
    simp only [Bool.false_eq_true, if_false, pure, bind, Except.bind, Except.pure]
    simp

/-- C16: max-rE weights with unit amplitude. -/
theorem C16_maxre (N : ℕ) : ∃ w, maxreModalWeights N = .ok w ∧ w.length = N + 1 ∧ steeringGain w = 1 := by
  have hpos : steeringGain (maxREWeights N) ≠ 0 := by
    unfold maxREWeights
    rw [steeringGain_range]
    have := sum_maxre_pos N
    positivity
  refine ⟨_, (unitAmp_eq N _).1, by simp, ?_⟩
  rw [steeringGain_div]
  exact div_self hpos

/-- C16: Butterworth weights with unit amplitude. -/
theorem C16_butterworth (N : ℕ) (k nc : ℝ) (hnc : 0 < nc) :
    ∃ w, butterworthWeights N k nc = .ok w ∧ w.length = N + 1 ∧ steeringGain w = 1 := by
  refine ⟨_, (unitAmp_eq N _).1, by simp, ?_⟩
  rw [steeringGain_div]
  refine div_self ?_
  rw [steeringGain_range]
  have : 0 < ∑ n ∈ Finset.range (N + 1), (2 * (n : ℝ) + 1) * (1 / √(1 + ((n : ℝ) / nc) ^ (2 * k))) := by
    refine Finset.sum_pos (fun n _ => ?_) ⟨0, by simp⟩
    have : 0 ≤ ((n : ℝ) / nc) ^ (2 * k) := Real.rpow_nonneg (by positivity) _
    positivity
  positivity

/-- C16: without compensation the weights are returned as they are. -/
theorem C16_no_compensation (N : ℕ) (k nc : ℝ) :
    maxreModalWeights N false = .ok (maxREWeights N) ∧
    butterworthWeights N k nc false
      = .ok ((List.range (N + 1)).map fun n : ℕ => 1 / √(1 + ((n : ℝ) / nc) ^ (2 * k))) :=
  ⟨(unitAmp_eq N _).2, (unitAmp_eq N _).2⟩

example : ∃ w, butterworthWeights 5 5 3 = .ok w ∧ w.length = 5 + 1 ∧ steeringGain w = 1 :=
  C16_butterworth 5 5 3 (by norm_num)

/-- C17: the order-`N` cardioid pattern. -/
theorem C17_cardioid (N : ℕ) (d : ℝ) :
    bandlimitedDirac N d (some (cardioidWeights N)) = .ok (((1 + cos d) / 2) ^ N) := by
  unfold bandlimitedDirac
  rw [if_pos (by simp [cardioidWeights])]
  congr 1
  rw [← cardioid_sum]
  refine Finset.sum_congr rfl fun n hn => ?_
  rw [Finset.mem_range] at hn
  rw [cardioidWeights_eq]
  simp [List.getElem?_range hn]
  field_simp
  exact Or.inl trivial

/-- C17: it is non-negative, at most 1, equals 1 in steering direction and vanishes (for `N ≥ 1`) exactly behind. -/
theorem C17_in_phase (N : ℕ) (d : ℝ) :
    ∃ y, bandlimitedDirac N d (some (cardioidWeights N)) = .ok y ∧ 0 ≤ y ∧ y ≤ 1 ∧ (cos d = 1 → y = 1) ∧
      (1 ≤ N → (y = 0 ↔ cos d = -1)) := by
  refine ⟨_, C17_cardioid N d, ?_, ?_, ?_, ?_⟩
  · have := neg_one_le_cos d; positivity [this, (by linarith : 0 ≤ 1 + cos d)]
  · have := neg_one_le_cos d; have := cos_le_one d
    exact pow_le_one₀ (by linarith) (by linarith)
  · intro h; rw [h]; norm_num
  · intro hN
    rw [pow_eq_zero_iff (by omega)]
    constructor
    · intro h; linarith
    · intro h; rw [h]; norm_num

example : ∃ y, bandlimitedDirac 3 π (some (cardioidWeights 3)) = .ok y ∧ y = 0 :=
  ⟨_, C17_cardioid 3 π, by rw [cos_pi]; norm_num⟩

end Verif.Sph
