import Verif.Props.RotationGroup
import Verif.Props.FiveDesign
import Mathlib.Analysis.Analytic.IsolatedZeros
import Mathlib.Analysis.Analytic.Polynomial
import Mathlib.Analysis.SpecialFunctions.Trigonometric.Deriv

/-!
C179: `sph.sh_mult` is a commutative and associative product, linear in both factors, with the omnidirectional function `1` as unit, and its first
coefficient is the inner product.
-/

namespace Verif.Props
open Real Matrix Verif.Sph

theorem next_square (N : ℕ) : (N + 1) ^ 2 < (N + 2) ^ 2 := Nat.pow_lt_pow_left (by omega) (by norm_num)

/-- Whatever expands to the product is what `sh_mult` returns. -/
theorem mult_unique (design : ℕ → Σ Q : ℕ, (Fin Q → ℝ) × (Fin Q → ℝ)) {N1 N2 M : ℕ} (hM : N1 + N2 = M) (hpos : 1 ≤ M) (hle : M ≤ 10)
    (hd : IsTDesign (2 * M) (design (2 * M)).2.1 (design (2 * M)).2.2) (a : Fin ((N1 + 1) ^ 2) → ℝ) (b : Fin ((N2 + 1) ^ 2) → ℝ) (c : Fin ((M + 1) ^ 2) → ℝ)
    (h : ∀ az, ∀ z ∈ Set.Icc 0 π, ∑ q, c q * shVec M az z q = (∑ q, a q * shVec N1 az z q) * ∑ q, b q * shVec N2 az z q) :
    shMult design a b = .ok ⟨(M + 1) ^ 2, c⟩ := by
  subst hM
  obtain ⟨c', hc', hv⟩ := C25_product design a b (N1 := N1) (N2 := N2) le_rfl (next_square _) le_rfl (next_square _) hpos hle hd
  rw [hc', expansion_unique c c' fun az z hz => (h az z hz).trans (hv az z).symm]

/-- What `sh_mult` returns expands to the product. -/
theorem mult_values (design : ℕ → Σ Q : ℕ, (Fin Q → ℝ) × (Fin Q → ℝ)) {N1 N2 M : ℕ} (hM : N1 + N2 = M) (hpos : 1 ≤ M) (hle : M ≤ 10)
    (hd : IsTDesign (2 * M) (design (2 * M)).2.1 (design (2 * M)).2.2) (a : Fin ((N1 + 1) ^ 2) → ℝ) (b : Fin ((N2 + 1) ^ 2) → ℝ) :
    ∃ c : Fin ((M + 1) ^ 2) → ℝ, shMult design a b = .ok ⟨(M + 1) ^ 2, c⟩ ∧
      ∀ az z, ∑ q, c q * shVec M az z q = (∑ q, a q * shVec N1 az z q) * ∑ q, b q * shVec N2 az z q := by
  subst hM
  exact C25_product design a b (N1 := N1) (N2 := N2) le_rfl (next_square _) le_rfl (next_square _) hpos hle hd

/-- C179: the order of the factors does not matter; also not for which exception is raised. -/
theorem C179_commutative (design : ℕ → Σ Q : ℕ, (Fin Q → ℝ) × (Fin Q → ℝ)) {N1 N2 : ℕ}
    (hd : 1 ≤ N1 + N2 → N1 + N2 ≤ 10 → IsTDesign (2 * (N1 + N2)) (design (2 * (N1 + N2))).2.1 (design (2 * (N1 + N2))).2.2)
    (a : Fin ((N1 + 1) ^ 2) → ℝ) (b : Fin ((N2 + 1) ^ 2) → ℝ) : shMult design a b = shMult design b a := by
  by_cases h : 1 ≤ N1 + N2 ∧ N1 + N2 ≤ 10
  · obtain ⟨c, hc, hv⟩ := mult_values design rfl h.1 h.2 (hd h.1 h.2) a b
    rw [hc]
    exact (mult_unique design (Nat.add_comm N2 N1) h.1 h.2 (hd h.1 h.2) b a c fun az z _ => by rw [hv, mul_comm]).symm
  · rw [C25_errors design a b (N1 := N1) (N2 := N2) le_rfl (next_square _) le_rfl (next_square _) (by omega),
      C25_errors design b a (N1 := N2) (N2 := N1) le_rfl (next_square _) le_rfl (next_square _) (by omega)]

/-- C179: three factors can be multiplied in either order. -/
theorem C179_associative (design : ℕ → Σ Q : ℕ, (Fin Q → ℝ) × (Fin Q → ℝ)) {N1 N2 N3 : ℕ}
    (hd : ∀ t, 1 ≤ t → t ≤ N1 + N2 + N3 → IsTDesign (2 * t) (design (2 * t)).2.1 (design (2 * t)).2.2) (h12 : 1 ≤ N1 + N2) (h23 : 1 ≤ N2 + N3) (hle : N1 + N2 + N3 ≤ 10)
    (a : Fin ((N1 + 1) ^ 2) → ℝ) (b : Fin ((N2 + 1) ^ 2) → ℝ) (c : Fin ((N3 + 1) ^ 2) → ℝ) :
    ((shMult design a b).bind fun p => shMult design p.2 c) = (shMult design b c).bind fun p => shMult design a p.2 := by
  obtain ⟨p, hp, hpv⟩ := mult_values design rfl h12 (by omega) (hd _ h12 (by omega)) a b
  obtain ⟨r, hr, hrv⟩ := mult_values design rfl h23 (by omega) (hd _ h23 (by omega)) b c
  rw [hp, hr]
  show shMult design p c = shMult design a r
  obtain ⟨x, hx, hxv⟩ := mult_values design rfl (by omega) hle (hd _ (by omega) le_rfl) p c
  rw [hx]
  exact (mult_unique design (by omega) (by omega) hle (hd _ (by omega) le_rfl) a r x fun az z _ => by rw [hxv, hpv, hrv, mul_assoc]).symm

/-- C179: the product is linear in the second factor (and by `C179_commutative` in the first). -/
theorem C179_linear (design : ℕ → Σ Q : ℕ, (Fin Q → ℝ) × (Fin Q → ℝ)) {N1 N2 : ℕ} (hpos : 1 ≤ N1 + N2) (hle : N1 + N2 ≤ 10)
    (hd : IsTDesign (2 * (N1 + N2)) (design (2 * (N1 + N2))).2.1 (design (2 * (N1 + N2))).2.2)
    (a : Fin ((N1 + 1) ^ 2) → ℝ) (b b' : Fin ((N2 + 1) ^ 2) → ℝ) (x y : ℝ) :
    ∃ c c' : Fin ((N1 + N2 + 1) ^ 2) → ℝ, shMult design a b = .ok ⟨_, c⟩ ∧ shMult design a b' = .ok ⟨_, c'⟩ ∧
      shMult design a (x • b + y • b') = .ok ⟨_, x • c + y • c'⟩ := by
  obtain ⟨c, hc, hv⟩ := mult_values design rfl hpos hle hd a b
  obtain ⟨c', hc', hv'⟩ := mult_values design rfl hpos hle hd a b'
  have lin : ∀ {K : ℕ} (u v : Fin K → ℝ) (s : Fin K → ℝ), ∑ q, (x • u + y • v) q * s q = x * ∑ q, u q * s q + y * ∑ q, v q * s q := fun u v s => by
    rw [Finset.mul_sum, Finset.mul_sum, ← Finset.sum_add_distrib]
    exact Finset.sum_congr rfl fun q _ => by simp only [Pi.add_apply, Pi.smul_apply, smul_eq_mul]; ring
  refine ⟨c, c', hc, hc', mult_unique design rfl hpos hle hd _ _ _ fun az z _ => ?_⟩
  rw [lin, lin, hv, hv']
  ring

/-- C179: multiplying with the function that is one everywhere, given with the coefficients of any order, changes nothing except that zeros are appended. -/
theorem C179_unit (design : ℕ → Σ Q : ℕ, (Fin Q → ℝ) × (Fin Q → ℝ)) {N1 N2 : ℕ} (hpos : 1 ≤ N1 + N2) (hle : N1 + N2 ≤ 10)
    (hd : IsTDesign (2 * (N1 + N2)) (design (2 * (N1 + N2))).2.1 (design (2 * (N1 + N2))).2.2)
    (one : Fin ((N1 + 1) ^ 2) → ℝ) (h1 : ∀ q, one q = if (q : ℕ) = 0 then √(4 * π) else 0) (b : Fin ((N2 + 1) ^ 2) → ℝ) :
    shMult design one b = .ok ⟨(N1 + N2 + 1) ^ 2, fun q => if h : (q : ℕ) < (N2 + 1) ^ 2 then b ⟨q, h⟩ else 0⟩ := by
  refine mult_unique design rfl hpos hle hd _ _ _ fun az z _ => ?_
  have hs : √(4 * π) ≠ 0 := by have := pi_pos; positivity
  have e1 : ∑ q, one q * shVec N1 az z q = 1 := by
    rw [Finset.sum_eq_single (⟨0, sq_pos' N1⟩ : Fin ((N1 + 1) ^ 2)) (fun q _ hq => by
      rw [h1, if_neg fun h => hq (Fin.ext h), zero_mul]) (fun h => absurd (Finset.mem_univ _) h), h1, if_pos rfl]
    have := weighted_first N1 (fun _ : Fin 1 => az) (fun _ => z) (fun _ => 1) 0
    unfold weightedShMat at this
    have e : shVec N1 az z ⟨0, sq_pos' N1⟩ = 1 / √(4 * π) := by
      have e2 : shMat N1 (fun _ : Fin 1 => az) (fun _ => z) 0 ⟨0, sq_pos' N1⟩ = shVec N1 az z ⟨0, sq_pos' N1⟩ := rfl
      rw [← e2]
      simpa [repVec] using this
    rw [e, mul_one_div_cancel hs]
  rw [e1, one_mul]
  have hsub : (N2 + 1) ^ 2 ≤ (N1 + N2 + 1) ^ 2 := Nat.pow_le_pow_left (by omega) 2
  have hinj : Function.Injective (Fin.castLE hsub) := Fin.castLE_injective hsub
  symm
  refine Finset.sum_of_injOn (Fin.castLE hsub) (hinj.injOn) (fun _ _ => Finset.mem_coe.2 (Finset.mem_univ _)) (fun q _ hq => ?_) (fun q _ => ?_)
  · rw [dif_neg, zero_mul]
    intro h
    exact hq ⟨⟨q, h⟩, Finset.mem_coe.2 (Finset.mem_univ _), Fin.ext rfl⟩
  · rw [dif_pos (show ((Fin.castLE hsub q : Fin _) : ℕ) < (N2 + 1) ^ 2 from q.2)]
    rfl

/-- C179: the first coefficient of the product is the inner product of the factors over `√(4π)`; in particular the energy of a function is `√(4π)` times the
first coefficient of its square. -/
theorem C179_inner (design : ℕ → Σ Q : ℕ, (Fin Q → ℝ) × (Fin Q → ℝ)) {N1 N2 : ℕ} (hN : N1 ≤ N2) (hpos : 1 ≤ N1 + N2) (hle : N1 + N2 ≤ 10)
    (hd : IsTDesign (2 * (N1 + N2)) (design (2 * (N1 + N2))).2.1 (design (2 * (N1 + N2))).2.2)
    (a : Fin ((N1 + 1) ^ 2) → ℝ) (b : Fin ((N2 + 1) ^ 2) → ℝ) :
    ∃ c : Fin ((N1 + N2 + 1) ^ 2) → ℝ, shMult design a b = .ok ⟨_, c⟩ ∧
      √(4 * π) * c ⟨0, sq_pos' _⟩ = ∑ q, a q * b (Fin.castLE (Nat.pow_le_pow_left (by omega) 2) q) := by
  obtain ⟨c, hc, hv⟩ := mult_values design rfl hpos hle hd a b
  refine ⟨c, hc, ?_⟩
  obtain ⟨M, hM⟩ : ∃ M, M = N1 + N2 := ⟨_, rfl⟩
  obtain ⟨⟨Q, azi, zen⟩, hD⟩ : ∃ D, D = design (2 * (N1 + N2)) := ⟨_, rfl⟩
  rw [← hD] at hd
  have hp := pi_pos
  have hs : √(4 * π) ≠ 0 := by positivity
  have hQ : (Q : ℝ) ≠ 0 := by have : 0 < Q := hd.pos; positivity
  have hG := design_gram (N := N1 + N2) hd le_rfl
  have gram : ∀ q r : Fin ((N1 + N2 + 1) ^ 2), ∑ j, shVec (N1 + N2) (azi j) (zen j) q * shVec (N1 + N2) (azi j) (zen j) r = if q = r then (Q : ℝ) / (4 * π) else 0 := fun q r => by
    have := congrFun (congrFun hG q) r
    rw [Matrix.mul_apply, Matrix.smul_apply, Matrix.one_apply, smul_eq_mul, mul_ite, mul_one, mul_zero] at this
    exact this
  have inner : ∀ u v : Fin ((N1 + N2 + 1) ^ 2) → ℝ, ∑ j, (∑ q, u q * shVec (N1 + N2) (azi j) (zen j) q) * ∑ q, v q * shVec (N1 + N2) (azi j) (zen j) q
      = (Q : ℝ) / (4 * π) * ∑ q, u q * v q := fun u v => by
    simp only [Finset.sum_mul_sum]
    rw [Finset.sum_comm, Finset.mul_sum]
    refine Finset.sum_congr rfl fun q _ => ?_
    rw [Finset.sum_comm]
    have : ∀ r, ∑ j, u q * shVec (N1 + N2) (azi j) (zen j) q * (v r * shVec (N1 + N2) (azi j) (zen j) r) = u q * v r * (if q = r then (Q : ℝ) / (4 * π) else 0) := fun r => by
      rw [← gram, Finset.mul_sum]
      exact Finset.sum_congr rfl fun j _ => by ring
    rw [Finset.sum_congr rfl fun r _ => this r]
    simp only [mul_ite, mul_zero, Finset.sum_ite_eq, Finset.mem_univ, if_true]
    ring
  -- expansions of lower order as expansions of the order of the product
  have lift : ∀ {N : ℕ} (hN : N ≤ N1 + N2) (u : Fin ((N + 1) ^ 2) → ℝ) (az z : ℝ), ∑ q, u q * shVec N az z q
      = ∑ q : Fin ((N1 + N2 + 1) ^ 2), (if h : (q : ℕ) < (N + 1) ^ 2 then u ⟨q, h⟩ else 0) * shVec (N1 + N2) az z q := fun {N} hN u az z => by
    have hsub : (N + 1) ^ 2 ≤ (N1 + N2 + 1) ^ 2 := Nat.pow_le_pow_left (by omega) 2
    refine Finset.sum_of_injOn (Fin.castLE hsub) ((Fin.castLE_injective hsub).injOn) (fun _ _ => Finset.mem_coe.2 (Finset.mem_univ _)) (fun q _ hq => ?_) (fun q _ => ?_)
    · rw [dif_neg, zero_mul]
      intro h
      exact hq ⟨⟨q, h⟩, Finset.mem_coe.2 (Finset.mem_univ _), Fin.ext rfl⟩
    · rw [dif_pos (show ((Fin.castLE hsub q : Fin _) : ℕ) < (N + 1) ^ 2 from q.2)]
      rfl
  have e1 : ∑ j, (∑ q, c q * shVec (N1 + N2) (azi j) (zen j) q) = (Q : ℝ) / (4 * π) * (√(4 * π) * c ⟨0, sq_pos' _⟩) := by
    have := inner c fun q => if q = ⟨0, sq_pos' _⟩ then 1 else 0
    simp only [ite_mul, one_mul, zero_mul, mul_ite, mul_one, mul_zero, Finset.sum_ite_eq', Finset.mem_univ, if_true] at this
    have e : ∀ az z, shVec (N1 + N2) az z ⟨0, sq_pos' _⟩ = 1 / √(4 * π) := fun az z => by
      have := weighted_first (N1 + N2) (fun _ : Fin 1 => az) (fun _ => z) (fun _ => 1) 0
      unfold weightedShMat at this
      have e2 : shMat (N1 + N2) (fun _ : Fin 1 => az) (fun _ => z) 0 ⟨0, sq_pos' _⟩ = shVec (N1 + N2) az z ⟨0, sq_pos' _⟩ := rfl
      rw [← e2]
      simpa [repVec] using this
    simp only [e] at this
    rw [← Finset.sum_mul] at this
    rw [mul_one_div, div_eq_iff hs] at this
    rw [this]
    ring
  have e2 : ∑ j, (∑ q, c q * shVec (N1 + N2) (azi j) (zen j) q) = (Q : ℝ) / (4 * π) * ∑ q, a q * b (Fin.castLE (Nat.pow_le_pow_left (by omega) 2) q) := by
    simp only [hv]
    rw [Finset.sum_congr rfl fun j _ => by rw [lift (by omega) a, lift (by omega) b], inner]
    congr 1
    have hsub : (N1 + 1) ^ 2 ≤ (N1 + N2 + 1) ^ 2 := Nat.pow_le_pow_left (by omega) 2
    have h12 : (N1 + 1) ^ 2 ≤ (N2 + 1) ^ 2 := Nat.pow_le_pow_left (by omega) 2
    symm
    refine Finset.sum_of_injOn (Fin.castLE hsub) ((Fin.castLE_injective hsub).injOn) (fun _ _ => Finset.mem_coe.2 (Finset.mem_univ _)) (fun q _ hq => ?_) (fun q _ => ?_)
    · rw [dif_neg, zero_mul]
      intro h
      exact hq ⟨⟨q, h⟩, Finset.mem_coe.2 (Finset.mem_univ _), Fin.ext rfl⟩
    · rw [dif_pos (show ((Fin.castLE hsub q : Fin _) : ℕ) < (N1 + 1) ^ 2 from q.2),
        dif_pos (show ((Fin.castLE hsub q : Fin _) : ℕ) < (N2 + 1) ^ 2 from lt_of_lt_of_le q.2 h12)]
      rfl
  exact mul_left_cancel₀ (by positivity) (e1.symm.trans e2)

/-- On the way from one direction to another, an expansion is an analytic function. -/
theorem expansion_analytic {N : ℕ} (c : Fin ((N + 1) ^ 2) → ℝ) : ∃ F : ℝ → ℝ → ℝ, (∀ a, ∀ z ∈ Set.Icc 0 π, F a z = ∑ q, c q * shVec N a z q) ∧
    ∀ a a' z z' : ℝ, AnalyticOnNhd ℝ (fun t => F (a + t * a') (z + t * z')) Set.univ := by
  obtain ⟨p, -, hp⟩ := (C79_polynomials N fun a z => ∑ q, c q * shVec N a z q).1 ⟨c, fun _ _ _ => rfl⟩
  refine ⟨fun a z => MvPolynomial.eval (dirVec a z) p, fun a z hz => (hp a z hz).symm, fun a a' z z' => ?_⟩
  have lin : ∀ u v x : ℝ, AnalyticAt ℝ (fun t => u + t * v) x := fun u v x => analyticAt_const.add (analyticAt_id.mul analyticAt_const)
  have hc : ∀ u v x : ℝ, AnalyticAt ℝ (fun t => cos (u + t * v)) x := fun u v x => Real.analyticAt_cos.comp (lin u v x)
  have hs : ∀ u v x : ℝ, AnalyticAt ℝ (fun t => sin (u + t * v)) x := fun u v x => Real.analyticAt_sin.comp (lin u v x)
  have := AnalyticOnNhd.aeval_mvPolynomial (𝕜 := ℝ) (A := ℝ) (B := ℝ) (s := Set.univ) (f := fun t => dirVec (a + t * a') (z + t * z')) (fun i x _ => by
    fin_cases i
    · exact (hc a a' x).mul (hs z z' x)
    · exact (hs a a' x).mul (hs z z' x)
    · exact hc z z' x) p
  exact this

/-- C179: a product is zero only if one of the factors is: multiplication with a pattern other than zero loses nothing. -/
theorem C179_no_zero_divisors (design : ℕ → Σ Q : ℕ, (Fin Q → ℝ) × (Fin Q → ℝ)) {N1 N2 : ℕ} (hpos : 1 ≤ N1 + N2) (hle : N1 + N2 ≤ 10)
    (hd : IsTDesign (2 * (N1 + N2)) (design (2 * (N1 + N2))).2.1 (design (2 * (N1 + N2))).2.2)
    (a : Fin ((N1 + 1) ^ 2) → ℝ) (b : Fin ((N2 + 1) ^ 2) → ℝ) :
    shMult design a b = .ok ⟨(N1 + N2 + 1) ^ 2, 0⟩ ↔ a = 0 ∨ b = 0 := by
  obtain ⟨c, hc, hv⟩ := mult_values design rfl hpos hle hd a b
  have zero : ∀ {N : ℕ} (az z : ℝ), ∑ q, (0 : Fin ((N + 1) ^ 2) → ℝ) q * shVec N az z q = 0 := fun az z => by simp
  constructor
  · intro h
    rw [hc] at h
    have h0 : c = 0 := eq_of_heq (Sigma.mk.inj (Except.ok.inj h)).2
    obtain ⟨F, hF, hFa⟩ := expansion_analytic a
    obtain ⟨G, hG, hGa⟩ := expansion_analytic b
    by_contra hne
    push Not at hne
    obtain ⟨a0, z0, hz0, h1⟩ : ∃ a0, ∃ z0 : ℝ, ∃ _ : z0 ∈ Set.Icc 0 π, F a0 z0 ≠ 0 := by
      by_contra hx
      push Not at hx
      exact hne.1 (expansion_unique _ _ fun az z hz => by rw [← hF az z hz, hx az z hz, zero])
    obtain ⟨a1, z1, hz1, h2⟩ : ∃ a1, ∃ z1 : ℝ, ∃ _ : z1 ∈ Set.Icc 0 π, G a1 z1 ≠ 0 := by
      by_contra hx
      push Not at hx
      exact hne.2 (expansion_unique _ _ fun az z hz => by rw [← hG az z hz, hx az z hz, zero])
    have key := AnalyticOnNhd.eq_zero_or_eq_zero_of_mul_eq_zero ((hFa a0 (a1 - a0) z0 (z1 - z0)).mono (Set.subset_univ (Set.Icc 0 1)))
      ((hGa a0 (a1 - a0) z0 (z1 - z0)).mono (Set.subset_univ (Set.Icc 0 1))) (fun t ht => by
        have hz : z0 + t * (z1 - z0) ∈ Set.Icc 0 π := by
          obtain ⟨t0, t1⟩ := ht; obtain ⟨p0, p1⟩ := hz0; obtain ⟨q0, q1⟩ := hz1
          constructor <;> nlinarith [mul_nonneg t0 q0, mul_nonneg (sub_nonneg.2 t1) p0, mul_nonneg t0 (sub_nonneg.2 q1), mul_nonneg (sub_nonneg.2 t1) (sub_nonneg.2 p1)]
        show F _ _ * G _ _ = 0
        rw [hF _ _ hz, hG _ _ hz, ← hv, h0, zero]) isPreconnected_Icc
    rcases key with k | k
    · exact h1 (by simpa using k 0 ⟨le_rfl, zero_le_one⟩)
    · exact h2 (by simpa using k 1 ⟨zero_le_one, le_rfl⟩)
  · intro h
    refine mult_unique design rfl hpos hle hd a b 0 fun az z _ => ?_
    rcases h with rfl | rfl
    · rw [zero, zero, zero_mul]
    · rw [zero, zero, mul_zero]

/-! #### examples -/

/-- `C179_associative`, `C179_commutative`, `C179_linear`, `C179_unit`: two functions of first order and a constant, with the design of strength five. -/
example (a b : Fin ((1 + 1) ^ 2) → ℝ) (c : Fin ((0 + 1) ^ 2) → ℝ) : ∃ azi zen : Fin 24 → ℝ,
    (shMult (fun _ => ⟨24, azi, zen⟩) a b = shMult (fun _ => ⟨24, azi, zen⟩) b a ∧
    ((shMult (fun _ => ⟨24, azi, zen⟩) a b).bind fun p => shMult (fun _ => ⟨24, azi, zen⟩) p.2 c)
      = (shMult (fun _ => ⟨24, azi, zen⟩) b c).bind fun p => shMult (fun _ => ⟨24, azi, zen⟩) a p.2) ∧
    shMult (fun _ => ⟨24, azi, zen⟩) (fun _ : Fin ((0 + 1) ^ 2) => √(4 * π)) a = .ok ⟨(0 + 1 + 1) ^ 2, a⟩ := by
  obtain ⟨azi, zen, hd⟩ := five_design
  have hw : ∀ t, t ≤ 2 → IsTDesign (2 * t) azi zen := fun t ht => ⟨hd.pos, hd.zenith, fun p hp => hd.exact p (by omega)⟩
  refine ⟨azi, zen, ⟨C179_commutative (N1 := 1) (N2 := 1) _ (fun _ _ => hw 2 le_rfl) a b,
    C179_associative (N1 := 1) (N2 := 1) (N3 := 0) _ (fun t _ ht => hw t ht) (by norm_num) (by norm_num) (by norm_num) a b c⟩, ?_⟩
  refine (C179_unit (N1 := 0) (N2 := 1) (fun _ => ⟨24, azi, zen⟩) (by norm_num) (by norm_num) (hw 1 (by norm_num)) (fun _ => √(4 * π)) (fun q => ?_) a).trans ?_
  · exact (if_pos (Nat.lt_one_iff.1 (lt_of_lt_of_eq q.2 (by norm_num)))).symm
  · congr 2
    funext q
    exact dif_pos (show (q : ℕ) < (1 + 1) ^ 2 from q.2)

/-- `C179_inner`: the energy of the pattern `1 + X`. -/
example : ∃ (azi zen : Fin 24 → ℝ) (c : Fin ((1 + 1 + 1) ^ 2) → ℝ), shMult (fun _ => ⟨24, azi, zen⟩) (![1, 0, 0, 1] : Fin ((1 + 1) ^ 2) → ℝ) (![1, 0, 0, 1] : Fin ((1 + 1) ^ 2) → ℝ) = .ok ⟨_, c⟩ ∧
    √(4 * π) * c ⟨0, by norm_num⟩ = 2 := by
  obtain ⟨azi, zen, hd⟩ := five_design
  obtain ⟨c, h1, h2⟩ := C179_inner (N1 := 1) (N2 := 1) (fun _ => ⟨24, azi, zen⟩) le_rfl (by norm_num) (by norm_num)
    ⟨hd.pos, hd.zenith, fun p hp => hd.exact p (by omega)⟩ (![1, 0, 0, 1] : Fin ((1 + 1) ^ 2) → ℝ) (![1, 0, 0, 1] : Fin ((1 + 1) ^ 2) → ℝ)
  refine ⟨azi, zen, c, h1, h2.trans ?_⟩
  refine (Fin.sum_univ_four (fun q : Fin 4 => (![1, 0, 0, 1] : Fin 4 → ℝ) q * (![1, 0, 0, 1] : Fin 4 → ℝ) q)).trans ?_
  show (1 : ℝ) * 1 + 0 * 0 + 0 * 0 + 1 * 1 = 2
  norm_num

/-- `C179_no_zero_divisors`: the product of `X` and `Y` is not zero. -/
example : ∃ azi zen : Fin 24 → ℝ, shMult (fun _ => ⟨24, azi, zen⟩) (![0, 0, 0, 1] : Fin ((1 + 1) ^ 2) → ℝ) (![0, 1, 0, 0] : Fin ((1 + 1) ^ 2) → ℝ) ≠ .ok ⟨(1 + 1 + 1) ^ 2, 0⟩ := by
  obtain ⟨azi, zen, hd⟩ := five_design
  refine ⟨azi, zen, fun h => ?_⟩
  rcases (C179_no_zero_divisors (N1 := 1) (N2 := 1) (fun _ => ⟨24, azi, zen⟩) (by norm_num) (by norm_num)
    ⟨hd.pos, hd.zenith, fun p hp => hd.exact p (by omega)⟩ _ _).1 h with h | h
  · exact one_ne_zero (congrFun h (3 : Fin 4))
  · exact one_ne_zero (congrFun h (1 : Fin 4))

end Verif.Props
