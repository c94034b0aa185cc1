import Verif.Props.ShAlgebra
import Verif.Props.ModalWeights
import Verif.Props.Beamformers

/-!
C181: products (`sph.sh_mult`) of beams steered to the same direction.
-/

namespace Verif.Props
open Real Verif.Sph

/-- Functions that are sums of Legendre polynomials up to a degree. -/
noncomputable def legSpan (N : ℕ) : Submodule ℝ (ℝ → ℝ) := Submodule.span ℝ (Set.range fun n : Fin (N + 1) => evalLegendre n)

theorem legSpan_mem {N n : ℕ} (h : n ≤ N) : evalLegendre n ∈ legSpan N := Submodule.subset_span ⟨⟨n, by omega⟩, rfl⟩

theorem legSpan_X {N : ℕ} {f : ℝ → ℝ} (hf : f ∈ legSpan N) : (fun x => x * f x) ∈ legSpan (N + 1) := by
  unfold legSpan at hf
  induction hf using Submodule.span_induction with
  | mem f hf =>
    obtain ⟨n, rfl⟩ := hf
    have hn := n.2
    have e : (fun x => x * evalLegendre n x) = (((n : ℕ) + 1 : ℝ) / (2 * (n : ℕ) + 1)) • evalLegendre (n + 1) + (((n : ℕ) : ℝ) / (2 * (n : ℕ) + 1)) • evalLegendre ((n : ℕ) - 1) := by
      funext x
      have := evalLegendre_bonnet n x
      have h0 : (2 * ((n : ℕ) : ℝ) + 1) ≠ 0 := by positivity
      simp only [Pi.add_apply, Pi.smul_apply, smul_eq_mul]
      field_simp
      linarith
    rw [e]
    exact Submodule.add_mem _ (Submodule.smul_mem _ _ (legSpan_mem (by omega))) (Submodule.smul_mem _ _ (legSpan_mem (by omega)))
  | zero =>
    have e : (fun x => x * (0 : ℝ → ℝ) x) = 0 := by funext x; simp
    rw [e]; exact Submodule.zero_mem _
  | add f g _ _ hf hg =>
    have e : (fun x => x * (f + g) x) = (fun x => x * f x) + fun x => x * g x := by funext x; simp [mul_add]
    rw [e]; exact Submodule.add_mem _ hf hg
  | smul c f _ hf =>
    have e : (fun x => x * (c • f) x) = c • fun x => x * f x := by funext x; simp; ring
    rw [e]; exact Submodule.smul_mem _ _ hf

/-- Every polynomial is a sum of Legendre polynomials. -/
theorem legSpan_poly : ∀ (N : ℕ) (p : Polynomial ℝ), p.natDegree ≤ N → (fun x => p.eval x) ∈ legSpan N
  | 0, p, h => by
    have e : (fun x => p.eval x) = p.coeff 0 • evalLegendre 0 := by
      funext x
      rw [Polynomial.eq_C_of_natDegree_le_zero h]
      simp [evalLegendre_zero]
    rw [e]; exact Submodule.smul_mem _ _ (legSpan_mem le_rfl)
  | N + 1, p, h => by
    have hd : p.divX.natDegree ≤ N := by rw [Polynomial.natDegree_divX_eq_natDegree_tsub_one]; omega
    have e : (fun x => p.eval x) = (fun x => x * p.divX.eval x) + p.coeff 0 • evalLegendre 0 := by
      funext x
      have := congrArg (Polynomial.eval x) (Polynomial.divX_mul_X_add p)
      rw [Polynomial.eval_add, Polynomial.eval_mul, Polynomial.eval_X, Polynomial.eval_C] at this
      rw [← this]
      show _ = x * _ + p.coeff 0 * evalLegendre 0 x
      rw [evalLegendre_zero]
      ring
    rw [e]
    exact Submodule.add_mem _ (legSpan_X (legSpan_poly N _ hd)) (Submodule.smul_mem _ _ (legSpan_mem (by omega)))

/-- Specification: coefficients of the beam with the weights `w` steered to a direction, as `parsa.sh_beamformer` and `design_sph_filterbank` form them
(`repeat_per_order(w) * sh_matrix(N, azi, zen)`). -/
noncomputable def beamOf (N : ℕ) (w : ℕ → ℝ) (azi zen : ℝ) : Fin ((N + 1) ^ 2) → ℝ := fun q => repVec N w q * shVec N azi zen q

theorem beamOf_values (N : ℕ) (w : ℕ → ℝ) {a1 z1 a2 z2 : ℝ} (h1 : z1 ∈ Set.Icc 0 π) (h2 : z2 ∈ Set.Icc 0 π) :
    .ok (∑ q, beamOf N w a1 z1 q * shVec N a2 z2 q) = bandlimitedDirac N (Utils.angleBetween (dirVec a1 z1) (dirVec a2 z2)) (some ((List.range (N + 1)).map w)) := by
  rw [C18_kernel N w a1 z1 a2 z2 h1 h2]
  congr 1
  exact Finset.sum_congr rfl fun q _ => by rw [beamOf]; ring

/-- C181: the product of two cardioids steered to the same direction is the cardioid of the sum of their orders. -/
theorem C181_cardioids (design : ℕ → Σ Q : ℕ, (Fin Q → ℝ) × (Fin Q → ℝ)) {N1 N2 : ℕ} (hpos : 1 ≤ N1 + N2) (hle : N1 + N2 ≤ 10)
    (hd : IsTDesign (2 * (N1 + N2)) (design (2 * (N1 + N2))).2.1 (design (2 * (N1 + N2))).2.2) (azi zen : ℝ) (hz : zen ∈ Set.Icc 0 π) :
    shMult design (beamOf N1 (fun n => (cardioidWeights N1).getD n 0) azi zen) (beamOf N2 (fun n => (cardioidWeights N2).getD n 0) azi zen)
      = .ok ⟨(N1 + N2 + 1) ^ 2, beamOf (N1 + N2) (fun n => (cardioidWeights (N1 + N2)).getD n 0) azi zen⟩ := by
  have hv : ∀ (N : ℕ) (a z : ℝ), z ∈ Set.Icc 0 π → ∑ q, beamOf N (fun n => (cardioidWeights N).getD n 0) azi zen q * shVec N a z q
      = ((1 + cos (Utils.angleBetween (dirVec azi zen) (dirVec a z))) / 2) ^ N := fun N a z h => by
    have := beamOf_values N (fun n => (cardioidWeights N).getD n 0) (a1 := azi) (a2 := a) hz h
    rw [← list_eq_range_map _ N (by simp [cardioidWeights]), C17_cardioid] at this
    exact Except.ok.inj this
  exact mult_unique design rfl hpos hle hd _ _ _ fun a z h => by rw [hv _ _ _ h, hv _ _ _ h, hv _ _ _ h, pow_add]

/-- C181: the product of any two beams steered to the same direction is again such a beam: its weights per order do not depend on the direction, and
its gain in steering direction is the product of the gains. -/
theorem C181_beams (design : ℕ → Σ Q : ℕ, (Fin Q → ℝ) × (Fin Q → ℝ)) {N1 N2 : ℕ} (hpos : 1 ≤ N1 + N2) (hle : N1 + N2 ≤ 10)
    (hd : IsTDesign (2 * (N1 + N2)) (design (2 * (N1 + N2))).2.1 (design (2 * (N1 + N2))).2.2) (w1 w2 : ℕ → ℝ) :
    ∃ w : ℕ → ℝ, (∀ (azi zen : ℝ), zen ∈ Set.Icc 0 π →
        shMult design (beamOf N1 w1 azi zen) (beamOf N2 w2 azi zen) = .ok ⟨(N1 + N2 + 1) ^ 2, beamOf (N1 + N2) w azi zen⟩) ∧
      steeringGain ((List.range (N1 + N2 + 1)).map w) = steeringGain ((List.range (N1 + 1)).map w1) * steeringGain ((List.range (N2 + 1)).map w2) := by
  have hp := pi_pos
  obtain ⟨P, hP⟩ : ∃ P : ℕ → (ℕ → ℝ) → Polynomial ℝ, P = fun N w => ∑ n ∈ Finset.range (N + 1), Polynomial.C (w n * (2 * n + 1) / (4 * π)) * legPoly n := ⟨_, rfl⟩
  have hdeg : ∀ N w, (P N w).natDegree ≤ N := fun N w => by
    rw [hP]
    refine Polynomial.natDegree_sum_le_of_forall_le _ _ fun n hn => ?_
    have := Finset.mem_range.1 hn
    exact (Polynomial.natDegree_C_mul_le _ _).trans ((natDegree_legPoly n).trans (by omega))
  have hev : ∀ N w x, (P N w).eval x = ∑ n ∈ Finset.range (N + 1), w n * (2 * n + 1) / (4 * π) * evalLegendre n x := fun N w x => by
    rw [hP, Polynomial.eval_finset_sum]
    exact Finset.sum_congr rfl fun n _ => by rw [Polynomial.eval_mul, Polynomial.eval_C]; rfl
  have hval : ∀ N w (a1 z1 a2 z2 : ℝ), z1 ∈ Set.Icc 0 π → z2 ∈ Set.Icc 0 π →
      ∑ q, beamOf N w a1 z1 q * shVec N a2 z2 q = (P N w).eval (cos (Utils.angleBetween (dirVec a1 z1) (dirVec a2 z2))) := by
    intro N w a1 z1 a2 z2 h1 h2
    have := beamOf_values N w (a1 := a1) (a2 := a2) h1 h2
    unfold bandlimitedDirac at this
    rw [if_pos (by simp)] at this
    rw [Except.ok.inj this, hev]
    refine Finset.sum_congr rfl fun n hn => ?_
    have := Finset.mem_range.1 hn
    simp [this]
  have hprod : (P N1 w1 * P N2 w2).natDegree ≤ N1 + N2 := Polynomial.natDegree_mul_le.trans (by have := hdeg N1 w1; have := hdeg N2 w2; omega)
  obtain ⟨u, hu⟩ := (Submodule.mem_span_range_iff_exists_fun ℝ).1 (legSpan_poly (N1 + N2) _ hprod)
  obtain ⟨w, hw⟩ : ∃ w : ℕ → ℝ, w = fun n => if h : n < N1 + N2 + 1 then u ⟨n, h⟩ * (4 * π) / (2 * n + 1) else 0 := ⟨_, rfl⟩
  have hPw : ∀ x, (P (N1 + N2) w).eval x = (P N1 w1).eval x * (P N2 w2).eval x := fun x => by
    have := congrFun hu x
    rw [← Polynomial.eval_mul]
    refine Eq.trans ?_ this
    rw [hev, Finset.sum_range, Finset.sum_apply]
    refine Finset.sum_congr rfl fun n _ => ?_
    rw [hw, Pi.smul_apply, smul_eq_mul]
    simp only [n.2, dif_pos]
    have h0 : (2 * ((n : ℕ) : ℝ) + 1) ≠ 0 := by positivity
    field_simp
  refine ⟨w, fun azi zen hz => mult_unique design rfl hpos hle hd _ _ _ fun a z h => ?_, ?_⟩
  · rw [hval _ _ _ _ _ _ hz h, hval _ _ _ _ _ _ hz h, hval _ _ _ _ _ _ hz h, hPw]
  · have hs : ∀ N w, steeringGain ((List.range (N + 1)).map w) = (P N w).eval (cos (Utils.angleBetween (dirVec 0 0) (dirVec 0 0))) := fun N w => by
      rw [← hval N w 0 0 0 0 ⟨le_rfl, hp.le⟩ ⟨le_rfl, hp.le⟩]
      exact (C16_steering_meaning N w 0 0 ⟨le_rfl, hp.le⟩).symm
    rw [hs, hs, hs, hPw]

/-! #### examples -/

/-- `C181_cardioids`, `C181_beams`: two beams of first order to the left, with the design of strength five. -/
example : ∃ azi zen : Fin 24 → ℝ, shMult (fun _ => ⟨24, azi, zen⟩) (beamOf 1 (fun n => (cardioidWeights 1).getD n 0) (π / 2) (π / 2))
      (beamOf 1 (fun n => (cardioidWeights 1).getD n 0) (π / 2) (π / 2)) = .ok ⟨(1 + 1 + 1) ^ 2, beamOf (1 + 1) (fun n => (cardioidWeights (1 + 1)).getD n 0) (π / 2) (π / 2)⟩ ∧
    ∃ w : ℕ → ℝ, shMult (fun _ => ⟨24, azi, zen⟩) (beamOf 1 (fun _ => π) (π / 2) (π / 2)) (beamOf 1 (fun n => (cardioidWeights 1).getD n 0) (π / 2) (π / 2))
      = .ok ⟨(1 + 1 + 1) ^ 2, beamOf (1 + 1) w (π / 2) (π / 2)⟩ := by
  obtain ⟨azi, zen, hd⟩ := five_design
  have hw : IsTDesign (2 * (1 + 1)) azi zen := ⟨hd.pos, hd.zenith, fun p hp => hd.exact p (by omega)⟩
  have hp := pi_pos
  have hz : π / 2 ∈ Set.Icc 0 π := ⟨by linarith, by linarith⟩
  obtain ⟨w, h, -⟩ := C181_beams (N1 := 1) (N2 := 1) (fun _ => ⟨24, azi, zen⟩) (by norm_num) (by norm_num) hw (fun _ => π) (fun n => (cardioidWeights 1).getD n 0)
  exact ⟨azi, zen, C181_cardioids (N1 := 1) (N2 := 1) (fun _ => ⟨24, azi, zen⟩) (by norm_num) (by norm_num) hw _ _ hz, w, h _ _ hz⟩

end Verif.Props
