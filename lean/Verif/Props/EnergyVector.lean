import Verif.Proofs.Designs
import Verif.Proofs.LegendreBound
import Verif.Props.SphDesigns

/-!
C110 (energy vector of Ambisonic panning on a design, and what max-rE weights maximise).
-/

namespace Verif.Props
open Real Verif.Sph Verif.Utils Verif.Solid

/-- Legendre polynomials of the angles to two directions, sampled on a design. -/
theorem design_zonal {Q t : ℕ} {azi zen : Fin Q → ℝ} (hd : IsTDesign t azi zen) (n k : ℕ) (h : n + k ≤ t) (a1 z1 a2 z2 : ℝ)
    (h1 : z1 ∈ Set.Icc 0 π) (h2 : z2 ∈ Set.Icc 0 π) :
    ∑ q, evalLegendre n (dirVec (azi q) (zen q) ⬝ᵥ dirVec a1 z1) * evalLegendre k (dirVec (azi q) (zen q) ⬝ᵥ dirVec a2 z2)
      = if n = k then Q / (2 * (n : ℝ) + 1) * evalLegendre n (dirVec a1 z1 ⬝ᵥ dirVec a2 z2) else 0 := by
  have hadd : ∀ (n : ℕ) (q : Fin Q) (a z : ℝ), z ∈ Set.Icc 0 π → evalLegendre n (dirVec (azi q) (zen q) ⬝ᵥ dirVec a z)
      = 4 * π / (2 * n + 1) * ∑ m ∈ Finset.Icc (-(n : ℤ)) n, realSH n m (azi q) (zen q) * realSH n m a z := by
    intro n q a z hz
    rw [C18_addition n _ _ _ _ (hd.zenith q) hz, cos_angleBetween]
    have := pi_ne_zero
    have : (2 * (n : ℝ) + 1) ≠ 0 := by positivity
    field_simp
  have hL : ∀ q : Fin Q, evalLegendre n (dirVec (azi q) (zen q) ⬝ᵥ dirVec a1 z1) * evalLegendre k (dirVec (azi q) (zen q) ⬝ᵥ dirVec a2 z2)
      = 4 * π / (2 * n + 1) * (4 * π / (2 * k + 1)) * ∑ m ∈ Finset.Icc (-(n : ℤ)) n, ∑ m' ∈ Finset.Icc (-(k : ℤ)) k,
        realSH n m a1 z1 * realSH k m' a2 z2 * (realSH n m (azi q) (zen q) * realSH k m' (azi q) (zen q)) := by
    intro q
    rw [hadd n q a1 z1 h1, hadd k q a2 z2 h2, mul_mul_mul_comm, Finset.sum_mul_sum]
    congr 1
    refine Finset.sum_congr rfl fun m _ => Finset.sum_congr rfl fun m' _ => by ring
  rw [Finset.sum_congr rfl fun q _ => hL q, ← Finset.mul_sum, Finset.sum_comm]
  have hin : ∀ m ∈ Finset.Icc (-(n : ℤ)) n, ∑ q, ∑ m' ∈ Finset.Icc (-(k : ℤ)) k,
        realSH n m a1 z1 * realSH k m' a2 z2 * (realSH n m (azi q) (zen q) * realSH k m' (azi q) (zen q))
      = if n = k then realSH n m a1 z1 * realSH n m a2 z2 * (Q / (4 * π)) else 0 := by
    intro m hm
    have hm' : |m| ≤ n := by rw [Finset.mem_Icc] at hm; exact abs_le.2 hm
    rw [Finset.sum_comm]
    have : ∀ m' ∈ Finset.Icc (-(k : ℤ)) k, ∑ q, realSH n m a1 z1 * realSH k m' a2 z2 * (realSH n m (azi q) (zen q) * realSH k m' (azi q) (zen q))
        = if m' = m then (if n = k then realSH n m a1 z1 * realSH n m a2 z2 * (Q / (4 * π)) else 0) else 0 := by
      intro m' _
      rw [← Finset.mul_sum, design_orth hd n k m m' hm' h]
      by_cases hnk : n = k
      · subst hnk
        by_cases hmm : m' = m
        · subst hmm; simp
        · simp [hmm, Ne.symm hmm]
      · simp [hnk]
    rw [Finset.sum_congr rfl this, Finset.sum_ite_eq']
    by_cases hnk : n = k
    · subst hnk; rw [if_pos hm]
    · simp [hnk]
  rw [Finset.sum_congr rfl hin]
  by_cases hnk : n = k
  · subst hnk
    simp only [if_true]
    rw [← Finset.sum_mul, C18_addition n _ _ _ _ h1 h2, cos_angleBetween]
    have := pi_ne_zero
    have : (2 * (n : ℝ) + 1) ≠ 0 := by positivity
    field_simp
  · simp [hnk]

/-- Powers are combinations of Legendre polynomials. -/
theorem pow_legendre (k : ℕ) : ∃ c : ℕ → ℝ, ∀ x : ℝ, x ^ k = ∑ j ∈ Finset.range (k + 1), c j * evalLegendre j x := by
  induction k with
  | zero => exact ⟨fun _ => 1, fun x => by simp [evalLegendre_zero]⟩
  | succ k ih =>
    obtain ⟨c, hc⟩ := ih
    refine ⟨fun j => (if j = 0 then 0 else c (j - 1) * j / (2 * (j : ℝ) - 1)) + if j < k then c (j + 1) * (j + 1) / (2 * (j : ℝ) + 3) else 0, fun x => ?_⟩
    have hx : ∀ j : ℕ, x * evalLegendre j x = (j + 1) / (2 * (j : ℝ) + 1) * evalLegendre (j + 1) x + j / (2 * (j : ℝ) + 1) * evalLegendre (j - 1) x := by
      intro j
      have := evalLegendre_bonnet j x
      have h0 : (2 * (j : ℝ) + 1) ≠ 0 := by positivity
      field_simp
      linarith
    rw [pow_succ', hc x, Finset.mul_sum]
    have e : ∀ j ∈ Finset.range (k + 1), x * (c j * evalLegendre j x)
        = c j * (j + 1) / (2 * (j : ℝ) + 1) * evalLegendre (j + 1) x + c j * j / (2 * (j : ℝ) + 1) * evalLegendre (j - 1) x := by
      intro j _
      rw [mul_left_comm, hx j]; ring
    rw [Finset.sum_congr rfl e, Finset.sum_add_distrib]
    simp only [add_mul]
    rw [Finset.sum_add_distrib]
    congr 1
    · rw [Finset.sum_range_succ' _ (k + 1)]
      simp only [if_true, zero_mul, add_zero, Nat.add_sub_cancel, Nat.succ_ne_zero, if_false]
      refine Finset.sum_congr rfl fun j _ => ?_
      push_cast
      rw [show 2 * ((j : ℝ) + 1) - 1 = 2 * j + 1 by ring]
    · rw [Finset.sum_range_succ' _ k]
      simp only [Nat.cast_zero, mul_zero, zero_div, zero_mul, add_zero, Nat.add_sub_cancel]
      rw [Finset.sum_range_succ, Finset.sum_range_succ]
      rw [if_neg (by omega), if_neg (by omega), zero_mul, zero_mul, add_zero, add_zero]
      refine Finset.sum_congr rfl fun j hj => ?_
      rw [if_pos (Finset.mem_range.1 hj)]
      push_cast
      rw [show 2 * ((j : ℝ) + 1) + 1 = 2 * j + 3 by ring]

/-- Polynomials are combinations of Legendre polynomials. -/
theorem poly_legendre (p : Polynomial ℝ) (d : ℕ) (h : p.natDegree ≤ d) :
    ∃ c : ℕ → ℝ, ∀ x : ℝ, p.eval x = ∑ j ∈ Finset.range (d + 1), c j * evalLegendre j x := by
  choose c hc using pow_legendre
  refine ⟨fun j => ∑ k ∈ Finset.range (d + 1), p.coeff k * if j ≤ k then c k j else 0, fun x => ?_⟩
  rw [Polynomial.eval_eq_sum_range' (Nat.lt_succ_of_le h)]
  simp only [Finset.sum_mul]
  rw [Finset.sum_comm]
  refine Finset.sum_congr rfl fun k hk => ?_
  rw [hc k x, Finset.mul_sum]
  have hk' := Finset.mem_range.1 hk
  have hsub : Finset.range (k + 1) ⊆ Finset.range (d + 1) := Finset.range_subset_range.2 (by omega)
  rw [← Finset.sum_subset hsub]
  · refine Finset.sum_congr rfl fun j hj => ?_
    rw [if_pos (by have := Finset.mem_range.1 hj; omega)]; ring
  · intro j _ hj
    rw [if_neg (by intro h'; exact hj (Finset.mem_range.2 (by omega)))]; ring

theorem dir_self (a z : ℝ) : dirVec a z ⬝ᵥ dirVec a z = 1 := by
  simp [dirVec, dotProduct, Fin.sum_univ_three]
  have := sin_sq_add_cos_sq a; have := sin_sq_add_cos_sq z; nlinarith

/-- The first moment of an axisymmetric pattern on a design points along its axis. -/
theorem design_moment {Q t : ℕ} {azi zen : Fin Q → ℝ} (hd : IsTDesign t azi zen) (p : Polynomial ℝ) (hp : p.natDegree + 1 ≤ t) (a z : ℝ)
    (hz : z ∈ Set.Icc 0 π) (i : Fin 3) :
    ∑ q, p.eval (dirVec (azi q) (zen q) ⬝ᵥ dirVec a z) * dirVec (azi q) (zen q) i
      = (∑ q, p.eval (dirVec (azi q) (zen q) ⬝ᵥ dirVec a z) * (dirVec (azi q) (zen q) ⬝ᵥ dirVec a z)) * dirVec a z i := by
  obtain ⟨c, hc⟩ := poly_legendre p p.natDegree le_rfl
  have key : ∀ a' z', z' ∈ Set.Icc 0 π → ∑ q, p.eval (dirVec (azi q) (zen q) ⬝ᵥ dirVec a z) * (dirVec (azi q) (zen q) ⬝ᵥ dirVec a' z')
      = (if 1 ≤ p.natDegree then c 1 * (Q / 3) else 0) * (dirVec a z ⬝ᵥ dirVec a' z') := by
    intro a' z' hz'
    have e : ∀ q, p.eval (dirVec (azi q) (zen q) ⬝ᵥ dirVec a z) * (dirVec (azi q) (zen q) ⬝ᵥ dirVec a' z')
        = ∑ j ∈ Finset.range (p.natDegree + 1), c j * (evalLegendre j (dirVec (azi q) (zen q) ⬝ᵥ dirVec a z) *
          evalLegendre 1 (dirVec (azi q) (zen q) ⬝ᵥ dirVec a' z')) := by
      intro q
      rw [hc, Finset.sum_mul, evalLegendre_one']
      exact Finset.sum_congr rfl fun j _ => by ring
    rw [Finset.sum_congr rfl fun q _ => e q, Finset.sum_comm]
    have e2 : ∀ j ∈ Finset.range (p.natDegree + 1), ∑ q, c j * (evalLegendre j (dirVec (azi q) (zen q) ⬝ᵥ dirVec a z) *
          evalLegendre 1 (dirVec (azi q) (zen q) ⬝ᵥ dirVec a' z')) = if j = 1 then c 1 * (Q / 3) * (dirVec a z ⬝ᵥ dirVec a' z') else 0 := by
      intro j hj
      have := Finset.mem_range.1 hj
      rw [← Finset.mul_sum, design_zonal hd j 1 (by omega) a z a' z' hz hz']
      by_cases hj1 : j = 1
      · subst hj1; simp only [if_true, evalLegendre_one']; push_cast; ring
      · simp [hj1]
    rw [Finset.sum_congr rfl e2, Finset.sum_ite_eq']
    by_cases h1 : 1 ≤ p.natDegree
    · rw [if_pos (by simp; omega), if_pos h1]
    · rw [if_neg (by simp; omega), if_neg h1, zero_mul]
  have hself := key a z hz
  rw [dir_self, mul_one] at hself
  rw [hself]
  have hpi := pi_pos
  have hcoord : ∃ a' z', z' ∈ Set.Icc 0 π ∧ ∀ b w, dirVec b w ⬝ᵥ dirVec a' z' = dirVec b w i := by
    fin_cases i
    · exact ⟨0, π / 2, ⟨by positivity, by linarith⟩, fun b w => by simp [dirVec, dotProduct, Fin.sum_univ_three]⟩
    · exact ⟨π / 2, π / 2, ⟨by positivity, by linarith⟩, fun b w => by simp [dirVec, dotProduct, Fin.sum_univ_three]⟩
    · exact ⟨0, 0, ⟨le_rfl, hpi.le⟩, fun b w => by simp [dirVec, dotProduct, Fin.sum_univ_three]⟩
  obtain ⟨a', z', hz', hi⟩ := hcoord
  have := key a' z' hz'
  simp only [hi] at this
  exact this

/-! ### C110 -/

/-- Twice the sum of `(n+1) w_n w_(n+1)`, the numerator of the energy vector length. -/
noncomputable def rENum (N : ℕ) (w : ℕ → ℝ) : ℝ := ∑ n ∈ Finset.range N, 2 * ((n : ℝ) + 1) * w n * w (n + 1)

/-- The sum of `(2n+1) w_n^2`, the energy of the pattern. -/
noncomputable def rEDen (N : ℕ) (w : ℕ → ℝ) : ℝ := ∑ n ∈ Finset.range (N + 1), (2 * (n : ℝ) + 1) * w n ^ 2

/-- The pattern as a polynomial of the cosine of the angle. -/
noncomputable def patPoly (N : ℕ) (w : ℕ → ℝ) : Polynomial ℝ :=
  ∑ n ∈ Finset.range (N + 1), Polynomial.C (w n * (2 * n + 1) / (4 * π)) * legPoly n

theorem patPoly_eval (N : ℕ) (w : ℕ → ℝ) (x : ℝ) :
    (patPoly N w).eval x = ∑ n ∈ Finset.range (N + 1), w n * (2 * n + 1) / (4 * π) * evalLegendre n x := by
  unfold patPoly
  rw [Polynomial.eval_finsetSum]
  refine Finset.sum_congr rfl fun n _ => ?_
  rw [Polynomial.eval_mul, Polynomial.eval_C]
  rfl

theorem patPoly_degree (N : ℕ) (w : ℕ → ℝ) : (patPoly N w).natDegree ≤ N := by
  refine Polynomial.natDegree_sum_le_of_forall_le _ _ fun n hn => ?_
  have := Finset.mem_range.1 hn
  refine (Polynomial.natDegree_C_mul_le _ _).trans ((natDegree_legPoly n).trans (by omega))

theorem rEDen_pos (N : ℕ) (w : ℕ → ℝ) (n : ℕ) (hn : n ≤ N) (hw : w n ≠ 0) : 0 < rEDen N w := by
  refine Finset.sum_pos' (fun k _ => by positivity) ⟨n, Finset.mem_range.2 (by omega), ?_⟩
  have : 0 < w n ^ 2 := by positivity
  positivity

theorem pattern_energy {Q t N : ℕ} {azi zen : Fin Q → ℝ} (hd : IsTDesign t azi zen) (ht : 2 * N ≤ t) (w : ℕ → ℝ) (a z : ℝ) (hz : z ∈ Set.Icc 0 π) :
    ∑ q, (patPoly N w).eval (dirVec (azi q) (zen q) ⬝ᵥ dirVec a z) ^ 2 = Q / (4 * π) ^ 2 * rEDen N w := by
  have e : ∀ q, (patPoly N w).eval (dirVec (azi q) (zen q) ⬝ᵥ dirVec a z) ^ 2 = ∑ n ∈ Finset.range (N + 1), ∑ k ∈ Finset.range (N + 1),
      w n * (2 * n + 1) / (4 * π) * (w k * (2 * k + 1) / (4 * π)) * (evalLegendre n (dirVec (azi q) (zen q) ⬝ᵥ dirVec a z) *
        evalLegendre k (dirVec (azi q) (zen q) ⬝ᵥ dirVec a z)) := by
    intro q
    rw [patPoly_eval, sq, Finset.sum_mul_sum]
    exact Finset.sum_congr rfl fun n _ => Finset.sum_congr rfl fun k _ => by ring
  rw [Finset.sum_congr rfl fun q _ => e q, Finset.sum_comm]
  unfold rEDen
  rw [Finset.mul_sum]
  refine Finset.sum_congr rfl fun n hn => ?_
  rw [Finset.sum_comm]
  have hn' := Finset.mem_range.1 hn
  have e2 : ∀ k ∈ Finset.range (N + 1), ∑ q, w n * (2 * n + 1) / (4 * π) * (w k * (2 * k + 1) / (4 * π)) *
      (evalLegendre n (dirVec (azi q) (zen q) ⬝ᵥ dirVec a z) * evalLegendre k (dirVec (azi q) (zen q) ⬝ᵥ dirVec a z))
      = if k = n then Q / (4 * π) ^ 2 * ((2 * (n : ℝ) + 1) * w n ^ 2) else 0 := by
    intro k hk
    have hk' := Finset.mem_range.1 hk
    rw [← Finset.mul_sum, design_zonal hd n k (by omega) a z a z hz hz, dir_self, evalLegendre_one]
    by_cases hkn : k = n
    · subst hkn
      simp only [if_true]
      have : (2 * (k : ℝ) + 1) ≠ 0 := by positivity
      have := pi_ne_zero
      field_simp
    · rw [if_neg (Ne.symm hkn), if_neg hkn, mul_zero]
  rw [Finset.sum_congr rfl e2, Finset.sum_ite_eq', if_pos hn]

theorem pattern_moment {Q t N : ℕ} {azi zen : Fin Q → ℝ} (hd : IsTDesign t azi zen) (ht : 2 * N + 1 ≤ t) (w : ℕ → ℝ) (a z : ℝ) (hz : z ∈ Set.Icc 0 π) :
    ∑ q, (patPoly N w).eval (dirVec (azi q) (zen q) ⬝ᵥ dirVec a z) ^ 2 * (dirVec (azi q) (zen q) ⬝ᵥ dirVec a z) = Q / (4 * π) ^ 2 * rENum N w := by
  set x : Fin Q → ℝ := fun q => dirVec (azi q) (zen q) ⬝ᵥ dirVec a z with hx
  have orth : ∀ n k : ℕ, n + k ≤ t → ∑ q, evalLegendre n (x q) * evalLegendre k (x q) = if n = k then Q / (2 * (n : ℝ) + 1) else 0 := by
    intro n k h
    have := design_zonal hd n k h a z a z hz hz
    rw [dir_self, evalLegendre_one, mul_one] at this
    exact this
  have e : ∀ q, (patPoly N w).eval (x q) ^ 2 * x q = ∑ n ∈ Finset.range (N + 1), ∑ k ∈ Finset.range (N + 1),
      w n * w k * (2 * k + 1) / (4 * π) ^ 2 * ((n + 1) * (evalLegendre (n + 1) (x q) * evalLegendre k (x q)) +
        n * (evalLegendre (n - 1) (x q) * evalLegendre k (x q))) := by
    intro q
    rw [patPoly_eval, sq, Finset.sum_mul_sum, Finset.sum_mul]
    refine Finset.sum_congr rfl fun n _ => ?_
    rw [Finset.sum_mul]
    refine Finset.sum_congr rfl fun k _ => ?_
    have hb := evalLegendre_bonnet n (x q)
    have : w n * (2 * n + 1) / (4 * π) * evalLegendre n (x q) * (w k * (2 * k + 1) / (4 * π) * evalLegendre k (x q)) * x q
        = w n * w k * (2 * k + 1) / (4 * π) ^ 2 * (((2 * (n : ℝ) + 1) * x q * evalLegendre n (x q)) * evalLegendre k (x q)) := by
      have := pi_ne_zero
      field_simp
    rw [this, hb]; ring
  rw [Finset.sum_congr rfl fun q _ => e q, Finset.sum_comm]
  have e2 : ∀ n ∈ Finset.range (N + 1), ∑ q, ∑ k ∈ Finset.range (N + 1),
      w n * w k * (2 * k + 1) / (4 * π) ^ 2 * ((n + 1) * (evalLegendre (n + 1) (x q) * evalLegendre k (x q)) +
        n * (evalLegendre (n - 1) (x q) * evalLegendre k (x q)))
      = Q / (4 * π) ^ 2 * ((if n < N then ((n : ℝ) + 1) * w n * w (n + 1) else 0) + n * w n * w (n - 1)) := by
    intro n hn
    have hn' := Finset.mem_range.1 hn
    rw [Finset.sum_comm]
    have e3 : ∀ k ∈ Finset.range (N + 1), ∑ q, w n * w k * (2 * k + 1) / (4 * π) ^ 2 * ((n + 1) * (evalLegendre (n + 1) (x q) * evalLegendre k (x q)) +
        n * (evalLegendre (n - 1) (x q) * evalLegendre k (x q)))
        = (if k = n + 1 then Q / (4 * π) ^ 2 * (((n : ℝ) + 1) * w n * w (n + 1)) else 0) +
          if k = n - 1 then Q / (4 * π) ^ 2 * (n * w n * w (n - 1)) else 0 := by
      intro k hk
      have hk' := Finset.mem_range.1 hk
      rw [← Finset.mul_sum, Finset.sum_add_distrib, ← Finset.mul_sum, ← Finset.mul_sum, orth (n + 1) k (by omega), orth (n - 1) k (by omega), mul_add]
      congr 1
      · by_cases h : k = n + 1
        · subst h
          simp only [if_true]
          push_cast
          have : (2 * ((n : ℝ) + 1) + 1) ≠ 0 := by positivity
          have := pi_ne_zero
          field_simp
        · rw [if_neg h, if_neg (Ne.symm h)]; ring
      · by_cases h : k = n - 1
        · subst h
          simp only [if_true]
          have : (2 * ((n - 1 : ℕ) : ℝ) + 1) ≠ 0 := by positivity
          have := pi_ne_zero
          field_simp
        · rw [if_neg h, if_neg (Ne.symm h)]; ring
    rw [Finset.sum_congr rfl e3, Finset.sum_add_distrib, Finset.sum_ite_eq', Finset.sum_ite_eq', mul_add]
    congr 1
    · by_cases h : n < N
      · rw [if_pos (Finset.mem_range.2 (by omega)), if_pos h]
      · rw [if_neg (by rw [Finset.mem_range]; omega), if_neg h, mul_zero]
    · rw [if_pos (Finset.mem_range.2 (by omega))]
  rw [Finset.sum_congr rfl e2, ← Finset.mul_sum, Finset.sum_add_distrib]
  congr 1
  unfold rENum
  rw [Finset.sum_range_succ, if_neg (lt_irrefl N), add_zero, Finset.sum_range_succ' (fun n : ℕ => (n : ℝ) * w n * w (n - 1))]
  simp only [Nat.cast_zero, zero_mul, add_zero, Nat.add_sub_cancel]
  rw [← Finset.sum_add_distrib]
  refine Finset.sum_congr rfl fun n hn => ?_
  rw [if_pos (Finset.mem_range.1 hn)]
  push_cast
  ring

/-- **C110** Panning with an order-`N` pattern (weights `w`) on loudspeakers that form a design of strength `2N+1`: the vector `r_E` of the gains points
exactly at the source, and its length is `2 Σ (n+1) w_n w_(n+1) / Σ (2n+1) w_n²`, the same for every source direction. -/
theorem C110_direction {Q t N : ℕ} {azi zen : Fin Q → ℝ} (hd : IsTDesign t azi zen) (ht : 2 * N + 1 ≤ t) (w : ℕ → ℝ) (k : ℕ) (hk : k ≤ N) (hw : w k ≠ 0)
    (a z : ℝ) (hz : z ∈ Set.Icc 0 π) (g : Fin Q → ℝ)
    (hg : ∀ q, bandlimitedDirac N (angleBetween (dirVec (azi q) (zen q)) (dirVec a z)) (some ((List.range (N + 1)).map w)) = .ok (g q)) :
    rE (fun q => dirVec (azi q) (zen q)) g = (some fun c => rENum N w / rEDen N w * dirVec a z c, |rENum N w / rEDen N w|) := by
  have hg' : ∀ q, g q = (patPoly N w).eval (dirVec (azi q) (zen q) ⬝ᵥ dirVec a z) := by
    intro q
    have h := hg q
    unfold bandlimitedDirac at h
    rw [if_pos (by simp)] at h
    injection h with h
    rw [← h, patPoly_eval, cos_angleBetween]
    refine Finset.sum_congr rfl fun n hn => ?_
    simp [List.getElem?_range (Finset.mem_range.1 hn)]
  have hQ : (0 : ℝ) < Q := by exact_mod_cast hd.pos
  have hden := rEDen_pos N w k hk hw
  have hE : ∑ q, g q ^ 2 = Q / (4 * π) ^ 2 * rEDen N w := by
    simp only [hg']
    exact pattern_energy hd (by omega) w a z hz
  have hpi := pi_pos
  have hE0 : ∑ q, g q ^ 2 ≠ 0 := by rw [hE]; positivity
  have hv : ∀ c, 1 / (∑ q, g q ^ 2) * ∑ q, g q ^ 2 * dirVec (azi q) (zen q) c = rENum N w / rEDen N w * dirVec a z c := by
    intro c
    have hm := design_moment hd (patPoly N w ^ 2) (by
      have := patPoly_degree N w
      have := Polynomial.natDegree_pow_le (p := patPoly N w) (n := 2)
      omega) a z hz c
    simp only [Polynomial.eval_pow] at hm
    rw [hE]
    simp only [hg']
    rw [hm, pattern_moment hd ht w a z hz]
    field_simp
  unfold rE
  simp only [if_neg hE0]
  rw [show (fun c => 1 / (∑ q, g q ^ 2) * ∑ q, g q ^ 2 * dirVec (azi q) (zen q) c) = fun c => rENum N w / rEDen N w * dirVec a z c from funext hv]
  congr 1
  simp only [hv]
  rw [show ∑ c, (rENum N w / rEDen N w * dirVec a z c) ^ 2 = (rENum N w / rEDen N w) ^ 2 * (dirVec a z ⬝ᵥ dirVec a z) by
    rw [dotProduct, Finset.mul_sum]; exact Finset.sum_congr rfl fun c _ => by ring]
  rw [dir_self, mul_one, Real.sqrt_sq_eq_abs]

/-- The energy vector length of the weights `P_n(x)`. -/
theorem rE_legendre (N : ℕ) (x : ℝ) : rENum N (fun n => evalLegendre n x)
    = x * rEDen N (fun n => evalLegendre n x) - ((N : ℝ) + 1) * evalLegendre N x * evalLegendre (N + 1) x := by
  unfold rENum rEDen
  induction N with
  | zero => simp [evalLegendre_zero, evalLegendre_one']
  | succ N ih =>
    rw [Finset.sum_range_succ, ih, Finset.sum_range_succ _ (N + 1), mul_add]
    have := evalLegendre_bonnet (N + 1) x
    simp only [Nat.add_sub_cancel] at this
    push_cast at this ⊢
    linear_combination (-evalLegendre (N + 1) x) * this

/-- **C110** What max-rE weights are for: if `x` is a point at which `P_0 … P_N` are positive and `P_(N+1)` vanishes (the largest zero of `P_(N+1)`), no
weights give a longer `r_E` than `x`, and the weights `P_n(x)` reach it. -/
theorem C110_optimal (N : ℕ) (x : ℝ) (hpos : ∀ n ≤ N, 0 < evalLegendre n x) (hzero : evalLegendre (N + 1) x = 0) :
    (∀ w : ℕ → ℝ, rENum N w ≤ x * rEDen N w) ∧ rENum N (fun n => evalLegendre n x) = x * rEDen N (fun n => evalLegendre n x) := by
  constructor
  · intro w
    have hb : ∀ n ∈ Finset.range (N + 1), x * ((2 * (n : ℝ) + 1) * w n ^ 2)
        = ((n : ℝ) + 1) * evalLegendre (n + 1) x / evalLegendre n x * w n ^ 2 + n * evalLegendre (n - 1) x / evalLegendre n x * w n ^ 2 := by
      intro n hn
      have h0 := hpos n (by have := Finset.mem_range.1 hn; omega)
      have := evalLegendre_bonnet n x
      rw [← add_mul, ← add_div, ← this]
      field_simp
    unfold rEDen rENum
    rw [Finset.mul_sum, Finset.sum_congr rfl hb]
    rw [Finset.sum_add_distrib, Finset.sum_range_succ, hzero, mul_zero, zero_div, zero_mul, add_zero,
      Finset.sum_range_succ' (fun n : ℕ => (n : ℝ) * evalLegendre (n - 1) x / evalLegendre n x * w n ^ 2)]
    simp only [Nat.cast_zero, zero_mul, zero_div, add_zero, Nat.add_sub_cancel]
    rw [← Finset.sum_add_distrib]
    refine Finset.sum_le_sum fun n hn => ?_
    have hn' := Finset.mem_range.1 hn
    have p0 := hpos n (by omega)
    have p1 := hpos (n + 1) (by omega)
    push_cast
    have : ((n : ℝ) + 1) * evalLegendre (n + 1) x / evalLegendre n x * w n ^ 2 + (n + 1) * evalLegendre n x / evalLegendre (n + 1) x * w (n + 1) ^ 2
        - 2 * (n + 1) * w n * w (n + 1)
        = (n + 1) / (evalLegendre n x * evalLegendre (n + 1) x) * (evalLegendre (n + 1) x * w n - evalLegendre n x * w (n + 1)) ^ 2 := by
      field_simp
      ring
    have h0 : 0 ≤ ((n : ℝ) + 1) / (evalLegendre n x * evalLegendre (n + 1) x) * (evalLegendre (n + 1) x * w n - evalLegendre n x * w (n + 1)) ^ 2 := by
      positivity
    linarith
  · have := rE_legendre N x
    rw [hzero, mul_zero, sub_zero] at this
    exact this

/-- The point of `C110_optimal` exists for every order. -/
theorem C110_optimum_exists (N : ℕ) : ∃ x ∈ Set.Ico (0 : ℝ) 1, (∀ n ≤ N, 0 < evalLegendre n x) ∧ evalLegendre (N + 1) x = 0 := by
  suffices h : ∃ x ∈ Set.Ico (0 : ℝ) 1, (∀ n ≤ N, ∀ y ∈ Set.Icc x 1, 0 < evalLegendre n y) ∧ evalLegendre (N + 1) x = 0 ∧
      ∀ y ∈ Set.Ioc x 1, 0 < evalLegendre (N + 1) y by
    obtain ⟨x, hx, h1, h2, _⟩ := h
    exact ⟨x, hx, fun n hn => h1 n hn x ⟨le_rfl, hx.2.le⟩, h2⟩
  induction N with
  | zero =>
    refine ⟨0, ⟨le_rfl, one_pos⟩, fun n hn y _ => ?_, by simp [evalLegendre_one'], fun y hy => ?_⟩
    · rw [Nat.le_zero.1 hn, evalLegendre_zero]; exact one_pos
    · rw [zero_add, evalLegendre_one']; exact hy.1
  | succ N ih =>
    obtain ⟨x, hx, hpos, hz, hup⟩ := ih
    have hcont : Continuous (evalLegendre (N + 2)) := by
      unfold evalLegendre; exact Polynomial.continuous _
    have hneg : evalLegendre (N + 2) x < 0 := by
      have hr := evalLegendre_rec N x
      rw [hz] at hr
      have := hpos N le_rfl x ⟨le_rfl, hx.2.le⟩
      have : 0 < ((N : ℝ) + 1) * evalLegendre N x := by positivity
      by_contra h
      push Not at h
      have : 0 ≤ ((N : ℝ) + 2) * evalLegendre (N + 2) x := by positivity
      linarith
    have h1 : evalLegendre (N + 2) 1 = 1 := evalLegendre_one _
    set S : Set ℝ := Set.Icc x 1 ∩ evalLegendre (N + 2) ⁻¹' {0} with hS
    have hcS : IsCompact S := isCompact_Icc.inter_right (isClosed_singleton.preimage hcont)
    have hne : S.Nonempty := by
      obtain ⟨y, hy, hy0⟩ := intermediate_value_Icc hx.2.le hcont.continuousOn (show (0 : ℝ) ∈ Set.Icc _ _ from ⟨hneg.le, by rw [h1]; exact zero_le_one⟩)
      exact ⟨y, hy, hy0⟩
    obtain ⟨y, ⟨hy1, hy0⟩, hmax⟩ := hcS.exists_isGreatest hne
    have hy0 : evalLegendre (N + 2) y = 0 := hy0
    have hxy : x < y := lt_of_le_of_ne hy1.1 fun h => by rw [← h] at hy0; linarith
    have hylt : y < 1 := lt_of_le_of_ne hy1.2 fun h => by rw [h, h1] at hy0; exact one_ne_zero hy0
    refine ⟨y, ⟨hx.1.trans hxy.le, hylt⟩, fun n hn v hv => ?_, hy0, fun v hv => ?_⟩
    · rcases Nat.lt_or_eq_of_le hn with h | rfl
      · exact hpos n (by omega) v ⟨hxy.le.trans hv.1, hv.2⟩
      · exact hup v ⟨hxy.trans_le hv.1, hv.2⟩
    · by_contra h
      push Not at h
      obtain ⟨u, hu, hu0⟩ := intermediate_value_Icc hv.2 hcont.continuousOn (show (0 : ℝ) ∈ Set.Icc _ _ from ⟨h, by rw [h1]; exact zero_le_one⟩)
      have := hmax ⟨⟨hy1.1.trans (hv.1.le.trans hu.1), hu.2⟩, hu0⟩
      have := hv.1.trans_le hu.1
      linarith

/-- **C110** Consequence for `r_E`: on a design of strength `2N+1` there is one length `x < 1` which no choice of order weights exceeds, in whatever direction
the source is, and which some weights reach for every direction. -/
theorem C110_max {Q t : ℕ} {azi zen : Fin Q → ℝ} (hd : IsTDesign t azi zen) (N : ℕ) (ht : 2 * N + 1 ≤ t) : ∃ x : ℝ, 0 ≤ x ∧ x < 1 ∧
    evalLegendre (N + 1) x = 0 ∧
    (∀ (w : ℕ → ℝ) (k : ℕ), k ≤ N → w k ≠ 0 → ∀ a z, z ∈ Set.Icc 0 π → ∀ g : Fin Q → ℝ,
      (∀ q, bandlimitedDirac N (angleBetween (dirVec (azi q) (zen q)) (dirVec a z)) (some ((List.range (N + 1)).map w)) = .ok (g q)) →
      (rE (fun q => dirVec (azi q) (zen q)) g).2 ≤ x) ∧
    (∀ a z, z ∈ Set.Icc 0 π → ∀ g : Fin Q → ℝ,
      (∀ q, bandlimitedDirac N (angleBetween (dirVec (azi q) (zen q)) (dirVec a z)) (some ((List.range (N + 1)).map fun n => evalLegendre n x)) = .ok (g q)) →
      rE (fun q => dirVec (azi q) (zen q)) g = (some fun c => x * dirVec a z c, x)) := by
  obtain ⟨x, hx, hpos, hz⟩ := C110_optimum_exists N
  obtain ⟨hopt, hat⟩ := C110_optimal N x hpos hz
  refine ⟨x, hx.1, hx.2, hz, fun w k hk hw a z hzz g hg => ?_, fun a z hzz g hg => ?_⟩
  · rw [C110_direction hd ht w k hk hw a z hzz g hg]
    have hden := rEDen_pos N w k hk hw
    have habs : |rENum N w| ≤ x * rEDen N w := by
      have h := hopt fun n => |w n|
      have e : rEDen N (fun n => |w n|) = rEDen N w := by simp [rEDen]
      rw [e] at h
      refine le_trans ?_ h
      unfold rENum
      refine (Finset.abs_sum_le_sum_abs _ _).trans (Finset.sum_le_sum fun n _ => ?_)
      rw [abs_mul, abs_mul, abs_of_nonneg (show (0 : ℝ) ≤ 2 * (n + 1) by positivity)]
    show |rENum N w / rEDen N w| ≤ x
    rw [abs_div, abs_of_pos hden, div_le_iff₀ hden]
    exact habs
  · have h0 : (fun n => evalLegendre n x) 0 ≠ 0 := by simp [evalLegendre_zero]
    have hden := rEDen_pos N (fun n => evalLegendre n x) 0 (Nat.zero_le _) h0
    rw [C110_direction hd ht (fun n => evalLegendre n x) 0 (Nat.zero_le _) h0 a z hzz g hg, hat, mul_div_cancel_right₀ _ hden.ne', abs_of_nonneg hx.1]

/-- **C110** `max_rE_weights`: the length it reaches, with `θ = 137.9°/(N+1.51)`, is `cos θ` up to a term that vanishes with `P_(N+1)(cos θ)`. -/
theorem C110_maxre_weights {Q t N : ℕ} {azi zen : Fin Q → ℝ} (hd : IsTDesign t azi zen) (ht : 2 * N + 1 ≤ t) (a z : ℝ) (hz : z ∈ Set.Icc 0 π)
    (g : Fin Q → ℝ) (hg : ∀ q, bandlimitedDirac N (angleBetween (dirVec (azi q) (zen q)) (dirVec a z)) (some (maxREWeights N)) = .ok (g q)) (x ρ : ℝ)
    (hx : x = cos (137.9 * (π / 180) / (N + 1.51)))
    (hρ : ρ = x - (N + 1) * evalLegendre N x * evalLegendre (N + 1) x / ∑ n ∈ Finset.range (N + 1), (2 * (n : ℝ) + 1) * evalLegendre n x ^ 2) :
    rE (fun q => dirVec (azi q) (zen q)) g = (some fun c => ρ * dirVec a z c, |ρ|) := by
  have h0 : (fun n => evalLegendre n x) 0 ≠ 0 := by simp [evalLegendre_zero]
  have hden := rEDen_pos N (fun n => evalLegendre n x) 0 (Nat.zero_le _) h0
  have hw : maxREWeights N = (List.range (N + 1)).map fun n => evalLegendre n x := by rw [hx]; rfl
  rw [hw] at hg
  rw [C110_direction hd ht (fun n => evalLegendre n x) 0 (Nat.zero_le _) h0 a z hz g hg, rE_legendre]
  have : (x * rEDen N (fun n => evalLegendre n x) - (N + 1) * evalLegendre N x * evalLegendre (N + 1) x) / rEDen N (fun n => evalLegendre n x) = ρ := by
    rw [sub_div, mul_div_cancel_right₀ _ hden.ne', hρ]; rfl
  rw [this]

/-- The eight corners of a cube at first order: `r_E` points at the source. -/
example : ∃ (azi zen : Fin 8 → ℝ) (g : Fin 8 → ℝ), rE (fun q => dirVec (azi q) (zen q)) g
    = (some fun c => rENum 1 (fun _ => 1) / rEDen 1 (fun _ => 1) * dirVec 1 1 c, 1 / 2) := by
  obtain ⟨azi, zen, hd⟩ := cube_design
  have h := C110_direction hd (N := 1) (by norm_num) (fun _ => 1) 0 (by norm_num) one_ne_zero 1 1 ⟨zero_le_one, by have := pi_gt_three; linarith⟩ _ (fun q => rfl)
  refine ⟨azi, zen, _, h.trans ?_⟩
  rw [show |rENum 1 (fun _ => 1) / rEDen 1 (fun _ => 1)| = 1 / 2 by norm_num [rENum, rEDen, Finset.sum_range_succ]]

/-- `C110_optimal`: the hypotheses are met at every order, here at order 3. -/
example : ∃ x : ℝ, ∀ w : ℕ → ℝ, rENum 3 w ≤ x * rEDen 3 w := by
  obtain ⟨x, -, h1, h2⟩ := C110_optimum_exists 3
  exact ⟨x, (C110_optimal 3 x h1 h2).1⟩

/-- `C110_max` on the cube. -/
example : ∃ (azi zen : Fin 8 → ℝ) (x : ℝ), x < 1 ∧ ∀ a z, z ∈ Set.Icc 0 π → ∀ g : Fin 8 → ℝ,
    (∀ q, bandlimitedDirac 1 (angleBetween (dirVec (azi q) (zen q)) (dirVec a z)) (some ((List.range (1 + 1)).map fun n => evalLegendre n x)) = .ok (g q)) →
    rE (fun q => dirVec (azi q) (zen q)) g = (some fun c => x * dirVec a z c, x) := by
  obtain ⟨azi, zen, hd⟩ := cube_design
  obtain ⟨x, -, h1, -, -, h2⟩ := C110_max hd 1 (by norm_num)
  exact ⟨azi, zen, x, h1, h2⟩

end Verif.Props
