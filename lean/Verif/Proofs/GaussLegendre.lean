import Mathlib.LinearAlgebra.Lagrange
import Verif.Props.Grids

/-!
Gauss-Legendre rules exist for every number of nodes, so the specification `IsGaussLegendre` of the external `leggauss` is satisfiable;
and the weights of every such rule are positive.
-/

namespace Verif.Props
open Real Polynomial Verif.Sph Verif.Grids

theorem J_pos (p : ℝ[X]) (hp : p ≠ 0) (h : ∀ x ∈ Set.Icc (-1 : ℝ) 1, 0 ≤ p.eval x) : 0 < J p := by
  unfold J
  have hnn : 0 ≤ ∫ x in (-1 : ℝ)..1, p.eval x := intervalIntegral.integral_nonneg (by norm_num) h
  rcases hnn.lt_or_eq with h1 | h1
  · exact h1
  exfalso
  have hz : ∀ x ∈ Set.Ioo (-1 : ℝ) 1, p.eval x = 0 := by
    by_contra hne
    push Not at hne
    obtain ⟨c, hc, hcne⟩ := hne
    have : 0 < ∫ x in (-1 : ℝ)..1, p.eval x :=
      intervalIntegral.integral_pos (by norm_num) p.continuous.continuousOn (fun x hx => h x ⟨hx.1.le, hx.2⟩)
        ⟨c, ⟨hc.1.le, hc.2.le⟩, lt_of_le_of_ne (h c ⟨hc.1.le, hc.2.le⟩) (Ne.symm hcne)⟩
    linarith
  exact hp (Polynomial.eq_zero_of_infinite_isRoot p ((Set.Ioo_infinite (by norm_num : (-1 : ℝ) < 1)).mono fun x hx => hz x hx))

/-- Orthogonality to all polynomials of lower degree. -/
theorem J_leg_mul_X_pow (n : ℕ) : ∀ M k : ℕ, n + k < M → J (legPoly M * (X ^ n * legPoly k)) = 0 := by
  induction n with
  | zero =>
    intro M k h
    have := Jm_zero_ne (n := M) (n' := k) (by omega)
    unfold Jm at this
    simpa using this
  | succ n ih =>
    intro M k h
    rcases k with _ | k
    · have h1 := ih M 1 (by omega)
      rw [← h1]; congr 2
      simp [legPoly, pow_succ]
    · have hr := legPoly_rec k
      have e : X ^ (n + 1) * legPoly (k + 1) = C (1 / (2 * (k : ℝ) + 3)) * (C ((k : ℝ) + 2) * (X ^ n * legPoly (k + 2)) + C ((k : ℝ) + 1) * (X ^ n * legPoly k)) := by
        have e1 : C ((k : ℝ) + 2) * (X ^ n * legPoly (k + 2)) + C ((k : ℝ) + 1) * (X ^ n * legPoly k) = C (2 * (k : ℝ) + 3) * (X ^ (n + 1) * legPoly (k + 1)) := by
          linear_combination (X ^ n) * hr
        rw [e1, ← mul_assoc, ← C_mul, one_div_mul_cancel (by positivity), C_1, one_mul]
      rw [e, show legPoly M * (C (1 / (2 * (k : ℝ) + 3)) * (C ((k : ℝ) + 2) * (X ^ n * legPoly (k + 2)) + C ((k : ℝ) + 1) * (X ^ n * legPoly k)))
        = C (1 / (2 * (k : ℝ) + 3)) * (C ((k : ℝ) + 2) * (legPoly M * (X ^ n * legPoly (k + 2))) + C ((k : ℝ) + 1) * (legPoly M * (X ^ n * legPoly k))) by ring]
      rw [J_C_mul, J_add, J_C_mul, J_C_mul, ih M (k + 2) (by omega), ih M k (by omega)]
      ring

theorem J_sum {ι : Type*} (s : Finset ι) (f : ι → ℝ[X]) : J (∑ i ∈ s, f i) = ∑ i ∈ s, J (f i) := by
  classical
  induction s using Finset.induction_on with
  | empty => simp [J]
  | insert a s ha ih => rw [Finset.sum_insert ha, Finset.sum_insert ha, J_add, ih]

theorem J_leg_mul (M : ℕ) (q : ℝ[X]) (hq : q.natDegree < M) : J (legPoly M * q) = 0 := by
  conv_lhs => rw [q.as_sum_range_C_mul_X_pow' hq]
  rw [Finset.mul_sum, J_sum]
  apply Finset.sum_eq_zero
  intro i hi
  have := J_leg_mul_X_pow i M 0 (by have := Finset.mem_range.1 hi; omega)
  rw [legPoly, mul_one] at this
  rw [show legPoly M * (C (q.coeff i) * X ^ i) = C (q.coeff i) * (legPoly M * X ^ i) by ring, J_C_mul, this, mul_zero]

theorem legPoly_ne_zero (M : ℕ) : legPoly M ≠ 0 := by
  intro h
  have := Jm_zero_self M
  unfold Jm at this
  rw [h] at this
  simp [J] at this
  have h2 : (0 : ℝ) < 2 / (2 * M + 1) := by positivity
  linarith

/-- A polynomial without root inside `(-1, 1)` has constant sign on `[-1, 1]`. -/
theorem const_sign (p : ℝ[X]) (h : ∀ x ∈ Set.Ioo (-1 : ℝ) 1, p.eval x ≠ 0) :
    (∀ x ∈ Set.Icc (-1 : ℝ) 1, 0 ≤ p.eval x) ∨ ∀ x ∈ Set.Icc (-1 : ℝ) 1, p.eval x ≤ 0 := by
  have hcl : ∀ q : ℝ[X], (∀ x ∈ Set.Ioo (-1 : ℝ) 1, 0 ≤ q.eval x) → ∀ x ∈ Set.Icc (-1 : ℝ) 1, 0 ≤ q.eval x := by
    intro q hq x hx
    have hc : IsClosed {x : ℝ | 0 ≤ q.eval x} := isClosed_le continuous_const q.continuous
    have := closure_minimal (s := Set.Ioo (-1 : ℝ) 1) (fun x hx => hq x hx) hc
    rw [closure_Ioo (by norm_num)] at this
    exact this hx
  have key : (∀ x ∈ Set.Ioo (-1 : ℝ) 1, 0 ≤ p.eval x) ∨ ∀ x ∈ Set.Ioo (-1 : ℝ) 1, 0 ≤ (-p).eval x := by
    by_contra hno
    push Not at hno
    obtain ⟨⟨a, ha, ha'⟩, b, hb, hb'⟩ := hno
    rw [eval_neg] at hb'
    have hconn : IsPreconnected (Set.Ioo (-1 : ℝ) 1) := isPreconnected_Ioo
    obtain ⟨c, hc, hc0⟩ := hconn.intermediate_value ha hb p.continuous.continuousOn (show (0 : ℝ) ∈ Set.Icc (p.eval a) (p.eval b) from ⟨ha'.le, by linarith⟩)
    exact h c hc hc0
  rcases key with h1 | h1
  · exact .inl (hcl p h1)
  · refine .inr fun x hx => ?_
    have := hcl (-p) h1 x hx
    rw [eval_neg] at this
    linarith

/-- Every polynomial becomes of constant sign after multiplication with simple factors at some of its roots inside `(-1, 1)`. -/
theorem fix_sign (d : ℕ) : ∀ p : ℝ[X], p ≠ 0 → p.natDegree = d → ∃ S : Finset ℝ, (∀ s ∈ S, -1 < s ∧ s < 1 ∧ p.eval s = 0) ∧
    ((∀ x ∈ Set.Icc (-1 : ℝ) 1, 0 ≤ (p * ∏ s ∈ S, (X - C s)).eval x) ∨ ∀ x ∈ Set.Icc (-1 : ℝ) 1, (p * ∏ s ∈ S, (X - C s)).eval x ≤ 0) := by
  induction d with
  | zero =>
    intro p hp hd
    refine ⟨∅, by simp, ?_⟩
    rw [Finset.prod_empty, mul_one]
    obtain ⟨c, rfl⟩ := natDegree_eq_zero.1 hd
    simp only [eval_C]
    rcases le_total 0 c with h | h
    · exact .inl fun _ _ => h
    · exact .inr fun _ _ => h
  | succ d ih =>
    intro p hp hd
    by_cases hroot : ∃ a ∈ Set.Ioo (-1 : ℝ) 1, p.eval a = 0
    · obtain ⟨a, ha, ha0⟩ := hroot
      obtain ⟨q, rfl⟩ := dvd_iff_isRoot.2 ha0
      have hq : q ≠ 0 := right_ne_zero_of_mul hp
      have hdq : q.natDegree = d := by
        rw [natDegree_mul (X_sub_C_ne_zero a) hq, natDegree_X_sub_C] at hd; omega
      obtain ⟨S, hS, hsgn⟩ := ih q hq hdq
      by_cases haS : a ∈ S
      · refine ⟨S.erase a, fun s hs => ?_, ?_⟩
        · obtain ⟨h1, h2, h3⟩ := hS s (Finset.mem_of_mem_erase hs)
          exact ⟨h1, h2, by simp [h3]⟩
        · have e : (X - C a) * q * ∏ s ∈ S.erase a, (X - C s) = q * ∏ s ∈ S, (X - C s) := by
            rw [← Finset.mul_prod_erase S _ haS]; ring
          rw [e]; exact hsgn
      · refine ⟨insert a S, fun s hs => ?_, ?_⟩
        · rcases Finset.mem_insert.1 hs with rfl | hs
          · exact ⟨ha.1, ha.2, by simp⟩
          · obtain ⟨h1, h2, h3⟩ := hS s hs
            exact ⟨h1, h2, by simp [h3]⟩
        · have e : (X - C a) * q * ∏ s ∈ insert a S, (X - C s) = (X - C a) ^ 2 * (q * ∏ s ∈ S, (X - C s)) := by
            rw [Finset.prod_insert haS]; ring
          rw [e]
          rcases hsgn with h | h
          · left; intro x hx
            rw [eval_mul, eval_pow]
            exact mul_nonneg (sq_nonneg _) (h x hx)
          · right; intro x hx
            rw [eval_mul, eval_pow]
            exact mul_nonpos_of_nonneg_of_nonpos (sq_nonneg _) (h x hx)
    · push Not at hroot
      refine ⟨∅, by simp, ?_⟩
      rw [Finset.prod_empty, mul_one]
      exact const_sign p hroot

/-- The roots of the Legendre polynomial. -/
theorem legPoly_roots (M : ℕ) : ∃ S : Finset ℝ, S.card = M ∧ ∀ s ∈ S, -1 < s ∧ s < 1 ∧ (legPoly M).eval s = 0 := by
  obtain ⟨S, hS, hsgn⟩ := fix_sign _ (legPoly M) (legPoly_ne_zero M) rfl
  have hle : S.card ≤ M := by
    have hsub : S ⊆ (legPoly M).roots.toFinset := by
      intro s hs
      rw [Multiset.mem_toFinset, mem_roots (legPoly_ne_zero M)]
      exact (hS s hs).2.2
    calc S.card ≤ (legPoly M).roots.toFinset.card := Finset.card_le_card hsub
      _ ≤ (legPoly M).roots.card := Multiset.toFinset_card_le _
      _ ≤ (legPoly M).natDegree := card_roots' _
      _ ≤ M := natDegree_legPoly M
  refine ⟨S, le_antisymm hle ?_, hS⟩
  by_contra hlt
  push Not at hlt
  have hdeg : (∏ s ∈ S, (X - C s) : ℝ[X]).natDegree = S.card := by
    rw [natDegree_prod_of_monic _ _ fun s _ => monic_X_sub_C s]
    simp
  have h0 := J_leg_mul M (∏ s ∈ S, (X - C s)) (by omega)
  have hne : legPoly M * ∏ s ∈ S, (X - C s) ≠ 0 :=
    mul_ne_zero (legPoly_ne_zero M) (Finset.prod_ne_zero_iff.2 fun s _ => X_sub_C_ne_zero s)
  rcases hsgn with h | h
  · exact absurd h0 (J_pos _ hne h).ne'
  · have := J_pos _ (neg_ne_zero.2 hne) fun x hx => by rw [eval_neg]; linarith [h x hx]
    rw [J_neg, h0] at this
    simp at this

/-- Gauss-Legendre rules exist. -/
theorem exists_gaussLegendre (M : ℕ) (hM : 1 ≤ M) : ∃ r, IsGaussLegendre M r := by
  obtain ⟨S, hcard, hS⟩ := legPoly_roots M
  set P := legPoly M
  have hP : P ≠ 0 := legPoly_ne_zero M
  have hdP : P.natDegree = M := by
    apply le_antisymm (natDegree_legPoly M)
    have hsub : S ⊆ P.roots.toFinset := by
      intro s hs
      rw [Multiset.mem_toFinset, mem_roots hP]
      exact (hS s hs).2.2
    calc M = S.card := hcard.symm
      _ ≤ P.roots.toFinset.card := Finset.card_le_card hsub
      _ ≤ P.roots.card := Multiset.toFinset_card_le _
      _ ≤ P.natDegree := card_roots' _
  refine ⟨(S.toList, S.toList.map fun s => J (Lagrange.basis S id s)), by simp [hcard], by simp [hcard], ?_, ?_⟩
  · intro x hx
    obtain ⟨h1, h2, _⟩ := hS x (Finset.mem_toList.1 hx)
    exact ⟨h1, h2⟩
  · intro p hp
    have hz : (List.zipWith (fun w x => w * p.eval x) (S.toList.map fun s => J (Lagrange.basis S id s)) S.toList).sum
        = ∑ s ∈ S, J (Lagrange.basis S id s) * p.eval s := by
      rw [List.zipWith_map_left, List.zipWith_self, Finset.sum_map_toList S fun s => J (Lagrange.basis S id s) * p.eval s]
    show (List.zipWith (fun w x => w * p.eval x) (S.toList.map fun s => J (Lagrange.basis S id s)) S.toList).sum = J p
    rw [hz]
    have hdeg0 : P.degree = (M : ℕ) := by rw [degree_eq_natDegree hP, hdP]
    have hmod : (p % P).degree < S.card := by
      rw [hcard, ← hdeg0]; exact EuclideanDomain.mod_lt p hP
    have hdiv : (p / P).natDegree < M := by
      have h1 : (P * C P.leadingCoeff⁻¹).Monic := monic_mul_leadingCoeff_inv hP
      have h2 : (P * C P.leadingCoeff⁻¹).natDegree = M := by
        rw [natDegree_mul_C (inv_ne_zero (leadingCoeff_ne_zero.2 hP)), hdP]
      rw [div_def]
      have h3 := natDegree_C_mul_le P.leadingCoeff⁻¹ (p /ₘ (P * C P.leadingCoeff⁻¹))
      rw [natDegree_divByMonic p h1, h2] at h3
      omega
    have hsplit : p = P * (p / P) + p % P := (EuclideanDomain.div_add_mod p P).symm
    have hJ : J p = J (p % P) := by
      conv_lhs => rw [hsplit]
      rw [J_add, J_leg_mul M _ hdiv, zero_add]
    have hev : ∀ s ∈ S, (p % P).eval s = p.eval s := by
      intro s hs
      conv_rhs => rw [hsplit]
      rw [eval_add, eval_mul, (hS s hs).2.2, zero_mul, zero_add]
    have hint := Lagrange.eq_interpolate (s := S) (v := id) (f := p % P) (Set.injOn_id _) hmod
    rw [hJ, hint, Lagrange.interpolate_apply, J_sum]
    apply Finset.sum_congr rfl
    intro s hs
    rw [J_C_mul, id_eq, hev s hs, mul_comm]

/-- The weights of a Gauss-Legendre rule are positive. -/
theorem gauss_weights_pos (m : ℕ) (r : List ℝ × List ℝ) (hr : IsGaussLegendre m r) (i : ℕ) (hi : i < m) : 0 < r.2.getD i 0 := by
  set p : ℝ[X] := ∏ j ∈ (Finset.range m).erase i, (X - C (r.1.getD j 0)) ^ 2 with hp
  have hp0 : p ≠ 0 := Finset.prod_ne_zero_iff.2 fun j _ => pow_ne_zero _ (X_sub_C_ne_zero _)
  have hdeg : p.natDegree ≤ 2 * m - 1 := by
    refine (natDegree_prod_le _ _).trans ?_
    have : ∀ j ∈ (Finset.range m).erase i, ((X - C (r.1.getD j 0)) ^ 2 : ℝ[X]).natDegree ≤ 2 := by
      intro j _
      rw [natDegree_pow, natDegree_X_sub_C]
    refine (Finset.sum_le_card_nsmul _ _ 2 this).trans ?_
    rw [Finset.card_erase_of_mem (Finset.mem_range.2 hi), Finset.card_range, smul_eq_mul]
    omega
  have hnn : ∀ x, 0 ≤ p.eval x := by
    intro x
    rw [hp, eval_prod]
    exact Finset.prod_nonneg fun j _ => by rw [eval_pow]; exact sq_nonneg _
  have hpos := J_pos p hp0 fun x _ => hnn x
  have hex := hr.exact p hdeg
  rw [zipWith_sum _ _ _ (by rw [hr.nodes, hr.weights])] at hex
  rw [hr.nodes] at hex
  have hz : ∀ j ∈ (Finset.range m).erase i, p.eval (r.1.getD j 0) = 0 := by
    intro j hj
    rw [hp, eval_prod]
    exact Finset.prod_eq_zero hj (by simp)
  rw [← Finset.add_sum_erase _ _ (Finset.mem_range.2 hi),
    Finset.sum_eq_zero (s := (Finset.range m).erase i) fun j hj => by rw [hz j hj, mul_zero], add_zero] at hex
  have : 0 < r.2.getD i 0 * p.eval (r.1.getD i 0) := by rw [hex]; exact hpos
  exact pos_of_mul_pos_left this (hnn _)

/-- A Gauss-Legendre rule with at least two nodes has a node with `x² ≤ 1/3`. -/
theorem gauss_small_node (m : ℕ) (hm : 2 ≤ m) (r : List ℝ × List ℝ) (hr : IsGaussLegendre m r) : ∃ i < m, (r.1.getD i 0) ^ 2 ≤ 1 / 3 := by
  by_contra hno
  push Not at hno
  have hex := hr.exact (X ^ 2 - C (1 / 3)) (by
    refine (natDegree_sub_le _ _).trans ?_
    rw [natDegree_X_pow, natDegree_C]; omega)
  rw [zipWith_sum _ _ _ (by rw [hr.nodes, hr.weights]), hr.nodes] at hex
  have hJ : ∫ x in (-1 : ℝ)..1, (X ^ 2 - C (1 / 3) : ℝ[X]).eval x = 0 := by
    have := J_derivative (C (1 / 3) * (X ^ 3 - X))
    rw [derivative_C_mul, derivative_sub, derivative_X_pow, derivative_X] at this
    have e : (C (1 / 3) * (C ((3 : ℕ) : ℝ) * X ^ (3 - 1) - 1) : ℝ[X]) = X ^ 2 - C (1 / 3) := by
      rw [mul_sub, ← mul_assoc, ← C_mul]; norm_num
    rw [e] at this
    unfold J at this
    rw [this]; simp; norm_num
  rw [hJ] at hex
  have hpos : 0 < ∑ i ∈ Finset.range m, r.2.getD i 0 * (X ^ 2 - C (1 / 3) : ℝ[X]).eval (r.1.getD i 0) := by
    apply Finset.sum_pos
    · intro i hi
      have hi := Finset.mem_range.1 hi
      refine mul_pos (gauss_weights_pos m r hr i hi) ?_
      simp only [eval_sub, eval_pow, eval_X, eval_C]
      linarith [hno i hi]
    · exact ⟨0, Finset.mem_range.2 (by omega)⟩
  linarith

end Verif.Props
