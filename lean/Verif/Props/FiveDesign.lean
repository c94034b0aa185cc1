import Verif.Props.SphDesigns

/-!
A concrete design of strength five, for the examples beside the theorems: four rings of six points, at the nodes of the quadrature formula with
four equal weights.
-/

namespace Verif.Props
open Real Polynomial Verif.Sph Verif.Grids

/-- The nodes `±a, ±b` with equal weights integrate polynomials up to degree five. -/
theorem equal_weights (a b : ℝ) (h2 : a ^ 2 + b ^ 2 = 2 / 3) (h4 : a ^ 4 + b ^ 4 = 2 / 5) (p : ℝ[X]) (hp : p.natDegree ≤ 5) :
    p.eval a + p.eval (-a) + (p.eval b + p.eval (-b)) = 2 * J p := by
  have hp' : p.natDegree < 6 := by omega
  obtain ⟨c0, c1, c2, c3, c4, c5, rfl⟩ : ∃ c0 c1 c2 c3 c4 c5 : ℝ, p = C c5 * X ^ 5 + C c4 * X ^ 4 + C c3 * X ^ 3 + C c2 * X ^ 2 + C c1 * X + C c0 := by
    refine ⟨p.coeff 0, p.coeff 1, p.coeff 2, p.coeff 3, p.coeff 4, p.coeff 5, ?_⟩
    conv_lhs => rw [p.as_sum_range_C_mul_X_pow' hp']
    simp [Finset.sum_range_succ]; ring
  have hi : J (C c5 * X ^ 5 + C c4 * X ^ 4 + C c3 * X ^ 3 + C c2 * X ^ 2 + C c1 * X + C c0) = 2 / 5 * c4 + 2 / 3 * c2 + 2 * c0 := by
    have := J_derivative (C (c5 / 6) * X ^ 6 + C (c4 / 5) * X ^ 5 + C (c3 / 4) * X ^ 4 + C (c2 / 3) * X ^ 3 + C (c1 / 2) * X ^ 2 + C c0 * X)
    have e : derivative (C (c5 / 6) * X ^ 6 + C (c4 / 5) * X ^ 5 + C (c3 / 4) * X ^ 4 + C (c2 / 3) * X ^ 3 + C (c1 / 2) * X ^ 2 + C c0 * X)
        = C c5 * X ^ 5 + C c4 * X ^ 4 + C c3 * X ^ 3 + C c2 * X ^ 2 + C c1 * X + C c0 := by
      simp only [derivative_add, derivative_C_mul, derivative_X_pow, derivative_X]
      have q5 : C (c5 / 6) * (C (6 : ℝ)) = C c5 := by rw [← C_mul]; congr 1; ring
      have q4 : C (c4 / 5) * (C (5 : ℝ)) = C c4 := by rw [← C_mul]; congr 1; ring
      have q3 : C (c3 / 4) * (C (4 : ℝ)) = C c3 := by rw [← C_mul]; congr 1; ring
      have q2 : C (c2 / 3) * (C (3 : ℝ)) = C c2 := by rw [← C_mul]; congr 1; ring
      have q1 : C (c1 / 2) * (C (2 : ℝ)) = C c1 := by rw [← C_mul]; congr 1; ring
      rw [← q5, ← q4, ← q3, ← q2, ← q1]
      norm_num
      ring
    rw [e] at this
    rw [this]
    simp
    ring
  rw [hi]
  simp only [eval_add, eval_mul, eval_C, eval_pow, eval_X]
  linear_combination 2 * c4 * h4 + 2 * c2 * h2

/-- There are 24 directions that form a design of strength five. -/
theorem five_design : ∃ azi zen : Fin 24 → ℝ, IsTDesign 5 azi zen := by
  have h5 : √5 * √5 = (5 : ℝ) := Real.mul_self_sqrt (by norm_num)
  have h5p : (0 : ℝ) < √5 := by positivity
  have h5l : 2 < √5 := by nlinarith
  obtain ⟨u, hu⟩ : ∃ u : ℝ, u = 1 / 3 + 2 * √5 / 15 := ⟨_, rfl⟩
  obtain ⟨v, hv⟩ : ∃ v : ℝ, v = 1 / 3 - 2 * √5 / 15 := ⟨_, rfl⟩
  have hu0 : 0 ≤ u := by rw [hu]; positivity
  have hv0 : 0 ≤ v := by rw [hv]; nlinarith
  have h5u : √5 < 5 / 2 := by nlinarith
  have hu1 : u ≤ 1 := by rw [hu]; linarith
  have hv1 : v ≤ 1 := by rw [hv]; linarith
  have hsu : √u ^ 2 = u := Real.sq_sqrt hu0
  have hsv : √v ^ 2 = v := Real.sq_sqrt hv0
  have h2 : √u ^ 2 + √v ^ 2 = 2 / 3 := by rw [hsu, hsv, hu, hv]; ring
  have h4 : √u ^ 4 + √v ^ 4 = 2 / 5 := by
    have : √u ^ 4 + √v ^ 4 = (√u ^ 2) ^ 2 + (√v ^ 2) ^ 2 := by ring
    rw [this, hsu, hsv, hu, hv]
    linear_combination (8 / 225) * h5
  have hub : √u ≤ 1 := Real.sqrt_le_one.2 hu1
  have hvb : √v ≤ 1 := Real.sqrt_le_one.2 hv1
  have hup : 0 ≤ √u := Real.sqrt_nonneg _
  have hvp : 0 ≤ √v := Real.sqrt_nonneg _
  obtain ⟨z, hz⟩ : ∃ z : List ℝ, z = [arccos √u, arccos (-√u), arccos √v, arccos (-√v)] := ⟨_, rfl⟩
  have hlen : z.length = 4 := by rw [hz]; rfl
  obtain ⟨azi, ha⟩ := toFn (n := 24) (npTile (linspaceOpen (2 * π) (2 * 2 + 2)) z.length) (by
    rw [hlen]; simp [npTile, linspaceOpen])
  obtain ⟨zen, he⟩ := toFn (n := 24) (npRepeat z (2 * 2 + 2)) (by rw [hz]; simp [npRepeat])
  have hw : List.ofFn (fun _ : Fin 24 => π / 6) = npRepeat (List.replicate 4 (π / 6)) (2 * 2 + 2) := by
    simp [npRepeat, List.replicate, List.ofFn_succ]
  have hzen : ∀ q, zen q ∈ Set.Icc 0 π := fun q => by
    have hm : zen q ∈ npRepeat z (2 * 2 + 2) := by rw [he]; exact ofFn_mem zen q
    rw [hz] at hm
    simp [npRepeat] at hm
    rcases hm with h | h | h | h <;> rw [h] <;> exact ⟨arccos_nonneg _, arccos_le_pi _⟩
  refine ⟨azi, zen, by norm_num, hzen, fun p hp => ?_⟩
  have key := grid_quad azi zen (fun _ => π / 6) z (List.replicate 4 (π / 6)) 2 (by rw [hlen]; simp) ha.symm he.symm hw (fun p hp => by
    rw [hlen, hz]
    have e := equal_weights √u √v h2 h4 p (by omega)
    have c1 : cos (arccos √u) = √u := cos_arccos (by linarith) hub
    have c2 : cos (arccos (-√u)) = -√u := cos_arccos (by linarith) (by linarith)
    have c3 : cos (arccos √v) = √v := cos_arccos (by linarith) hvb
    have c4 : cos (arccos (-√v)) = -√v := cos_arccos (by linarith) (by linarith)
    have : ∑ i ∈ Finset.range 4, (List.replicate 4 (π / 6)).getD i 0 * p.eval (cos ([arccos √u, arccos (-√u), arccos √v, arccos (-√v)].getD i 0))
        = π / 6 * (p.eval √u + p.eval (-√u) + (p.eval √v + p.eval (-√v))) := by
      rw [Finset.sum_range_succ, Finset.sum_range_succ, Finset.sum_range_succ, Finset.sum_range_one]
      show π / 6 * p.eval (cos (arccos √u)) + π / 6 * p.eval (cos (arccos (-√u))) + π / 6 * p.eval (cos (arccos √v)) + π / 6 * p.eval (cos (arccos (-√v))) = _
      rw [c1, c2, c3, c4]; ring
    rw [this, e]; push_cast; ring) hzen p hp
  rw [← Finset.mul_sum] at key
  have hp6 : π / 6 ≠ 0 := by have := pi_pos; positivity
  have : ∑ q, MvPolynomial.eval (dirVec (azi q) (zen q)) p = 24 * sphereMean fun a z => MvPolynomial.eval (dirVec a z) p := by
    refine mul_left_cancel₀ hp6 (key.trans ?_)
    ring
  rw [this]
  norm_num

end Verif.Props
