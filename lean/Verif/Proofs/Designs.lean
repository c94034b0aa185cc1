import Verif.Proofs.SphereInt
import Verif.Props.ShRotation

/-!
Sphere means of expansions, t-designs and quadrature on the sphere.
-/

namespace Verif.Sph
open Real MvPolynomial

theorem realSH_zero (a z : ℝ) : realSH 0 0 a z = 1 / √(4 * π) := by
  rw [realSH_factor]
  simp only [azF_zero, polF, Int.natAbs_zero, Function.iterate_zero, id]
  simp [legPoly]

theorem mean_sh (n : ℕ) (m : ℤ) (hm : |m| ≤ n) :
    sphereMean (fun a z => realSH n m a z) = if n = 0 ∧ m = 0 then 1 / √(4 * π) else 0 := by
  have h := realSH_orthonormal n 0 m 0 hm
  have e : (fun a z => realSH n m a z * realSH 0 0 a z) = fun a z => 1 / √(4 * π) * realSH n m a z := by
    ext a z; rw [realSH_zero]; ring
  rw [e] at h
  have h4 : 0 < √(4 * π) := by positivity
  have h2 : sphereMean (fun a z => 1 / √(4 * π) * realSH n m a z) = 1 / √(4 * π) * sphereMean (fun a z => realSH n m a z) := by
    unfold sphereMean
    simp only [mul_assoc, intervalIntegral.integral_const_mul]
    ring
  rw [h2] at h
  have hs : √(4 * π) * √(4 * π) = 4 * π := Real.mul_self_sqrt (by positivity)
  have h3 : sphereMean (fun a z => realSH n m a z) = √(4 * π) * (1 / √(4 * π) * sphereMean (fun a z => realSH n m a z)) := by
    field_simp
  rw [h3, h]
  split_ifs
  · rw [mul_one_div, div_eq_div_iff (by positivity) h4.ne']; linarith
  · simp

theorem polF_continuous (n k : ℕ) : Continuous (fun z : ℝ => polF n k (cos z)) := by
  unfold polF
  fun_prop

theorem mean_sum (N : ℕ) (c : Fin ((N + 1) ^ 2) → ℝ) :
    sphereMean (fun a z => ∑ q, c q * shVec N a z q) = ∑ q, c q * sphereMean (fun a z => shVec N a z q) := by
  have hf : ∀ (q : Fin ((N + 1) ^ 2)) (a z : ℝ), shVec N a z q
      = azF (acnDegree q) a * polF (acnOrder q) (acnDegree q).natAbs (cos z) := by
    intro q a z; rw [mul_comm]; exact realSH_factor _ _ _ _
  unfold sphereMean
  have hin : ∀ a : ℝ, ∫ z in (0 : ℝ)..π, (∑ q, c q * shVec N a z q) * sin z
      = ∑ q, c q * ∫ z in (0 : ℝ)..π, shVec N a z q * sin z := by
    intro a
    simp only [Finset.sum_mul]
    rw [intervalIntegral.integral_finsetSum]
    · refine Finset.sum_congr rfl fun q _ => ?_
      rw [← intervalIntegral.integral_const_mul]
      exact intervalIntegral.integral_congr fun z _ => by ring
    · intro q _
      simp only [hf]
      have := polF_continuous (acnOrder q) (acnDegree q).natAbs
      exact Continuous.intervalIntegrable (by fun_prop) _ _
  simp only [hin]
  rw [intervalIntegral.integral_finsetSum]
  · rw [Finset.sum_div]
    refine Finset.sum_congr rfl fun q _ => ?_
    rw [intervalIntegral.integral_const_mul]; ring
  · intro q _
    have e : ∀ a : ℝ, ∫ z in (0 : ℝ)..π, shVec N a z q * sin z = azF (acnDegree q) a *
        ∫ z in (0 : ℝ)..π, polF (acnOrder q) (acnDegree q).natAbs (cos z) * sin z := by
      intro a
      rw [← intervalIntegral.integral_const_mul]
      exact intervalIntegral.integral_congr fun z _ => by simp only [hf]; ring
    simp only [e]
    have := azF_continuous (acnDegree q)
    exact Continuous.intervalIntegrable (by fun_prop) _ _

theorem acn_zero_iff (q : ℕ) : (acnOrder q = 0 ∧ acnDegree q = 0) ↔ q = 0 := by
  constructor
  · rintro ⟨h1, h2⟩
    exact acn_ext (q' := 0) (by rw [h1]; rfl) (by rw [h2]; rfl)
  · rintro rfl; exact ⟨rfl, rfl⟩

/-- The mean of an SH expansion is its omnidirectional component. -/
theorem mean_expand (N : ℕ) (c : Fin ((N + 1) ^ 2) → ℝ) :
    sphereMean (fun a z => ∑ q, c q * shVec N a z q) = c ⟨0, sq_pos' N⟩ / √(4 * π) := by
  rw [mean_sum]
  have e : ∀ q : Fin ((N + 1) ^ 2), c q * sphereMean (fun a z => shVec N a z q)
      = if q = ⟨0, sq_pos' N⟩ then c q * (1 / √(4 * π)) else 0 := by
    intro q
    have : sphereMean (fun a z => shVec N a z q) = if acnOrder q = 0 ∧ acnDegree q = 0 then 1 / √(4 * π) else 0 :=
      mean_sh _ _ (acnDegree_abs q)
    rw [this]
    by_cases h : q = ⟨0, sq_pos' N⟩
    · rw [if_pos h, if_pos ((acn_zero_iff q).2 (by rw [h]))]
    · rw [if_neg h, if_neg (fun hh => h (Fin.ext ((acn_zero_iff q).1 hh))), mul_zero]
  rw [Finset.sum_congr rfl fun q _ => e q, Finset.sum_ite_eq' Finset.univ, if_pos (Finset.mem_univ _)]
  ring

theorem sphPt_dirVec (a : ℝ) {z : ℝ} (hz : z ∈ Set.Icc 0 π) : sphPt a z = dirVec a z := by
  unfold sphPt
  rw [abs_of_nonneg (sin_nonneg_of_mem_Icc hz)]; rfl

theorem sphereMean_congr {f g : ℝ → ℝ → ℝ} (h : ∀ a z, z ∈ Set.Icc 0 π → f a z = g a z) : sphereMean f = sphereMean g := by
  unfold sphereMean
  congr 1
  refine intervalIntegral.integral_congr fun a _ => ?_
  refine intervalIntegral.integral_congr fun z hz => ?_
  rw [Set.uIcc_of_le pi_pos.le] at hz
  simp only [h a z hz]

/-- A weighted point set that reproduces the sphere integral of the harmonics up to order `t` integrates every polynomial of
degree at most `t`. -/
theorem quad_of_sh {Q : ℕ} (azi zen w : Fin Q → ℝ) (hz : ∀ q, zen q ∈ Set.Icc 0 π) (t : ℕ) (s : ℝ)
    (h : ∀ (n : ℕ) (m : ℤ), |m| ≤ n → n ≤ t → ∑ q, w q * realSH n m (azi q) (zen q) = if n = 0 ∧ m = 0 then s / √(4 * π) else 0)
    (p : MvPolynomial (Fin 3) ℝ) (hp : p.totalDegree ≤ t) :
    ∑ q, w q * eval (dirVec (azi q) (zen q)) p = s * sphereMean (fun a z => eval (dirVec a z) p) := by
  obtain ⟨c, hc⟩ := poly_expand t p hp
  have h1 : sphereMean (fun a z => eval (dirVec a z) p) = c ⟨0, sq_pos' t⟩ / √(4 * π) := by
    rw [← mean_expand]
    refine sphereMean_congr fun a z hz => ?_
    rw [← sphPt_dirVec a hz, hc]
  have h2 : ∀ q, eval (dirVec (azi q) (zen q)) p = ∑ k, c k * shVec t (azi q) (zen q) k := by
    intro q; rw [← sphPt_dirVec _ (hz q), hc]
  simp only [h2, Finset.mul_sum]
  rw [Finset.sum_comm, h1]
  have e : ∀ k : Fin ((t + 1) ^ 2), ∑ q, w q * (c k * shVec t (azi q) (zen q) k)
      = if k = ⟨0, sq_pos' t⟩ then c k * (s / √(4 * π)) else 0 := by
    intro k
    have := h (acnOrder k) (acnDegree k) (acnDegree_abs k) (acnOrder_le k.2)
    have e1 : ∑ q, w q * (c k * shVec t (azi q) (zen q) k) = c k * ∑ q, w q * realSH (acnOrder k) (acnDegree k) (azi q) (zen q) := by
      rw [Finset.mul_sum]
      exact Finset.sum_congr rfl fun q _ => by rw [mul_left_comm]; rfl
    rw [e1, this]
    by_cases hk : k = ⟨0, sq_pos' t⟩
    · rw [if_pos hk, if_pos ((acn_zero_iff k).2 (by rw [hk]))]
    · rw [if_neg hk, if_neg (fun hh => hk (Fin.ext ((acn_zero_iff k).1 hh))), mul_zero]
  rw [Finset.sum_congr rfl fun k _ => e k, Finset.sum_ite_eq' Finset.univ, if_pos (Finset.mem_univ _)]
  ring

/-- A spherical t-design given by directions: the average of every polynomial of degree at most `t` over the points is its mean
over the sphere. -/
structure IsTDesign {Q : ℕ} (t : ℕ) (azi zen : Fin Q → ℝ) : Prop where
  pos : 0 < Q
  zenith : ∀ q, zen q ∈ Set.Icc 0 π
  exact : ∀ p : MvPolynomial (Fin 3) ℝ, p.totalDegree ≤ t →
    (∑ q, eval (dirVec (azi q) (zen q)) p) / Q = sphereMean fun a z => eval (dirVec a z) p

theorem design_orth {Q t : ℕ} {azi zen : Fin Q → ℝ} (hd : IsTDesign t azi zen) (n n' : ℕ) (m m' : ℤ) (hm : |m| ≤ n)
    (h : n + n' ≤ t) :
    ∑ q, realSH n m (azi q) (zen q) * realSH n' m' (azi q) (zen q) = if n = n' ∧ m = m' then Q / (4 * π) else 0 := by
  have hQ : (Q : ℝ) ≠ 0 := by have := hd.pos; positivity
  have hdeg : ((C (√((2 * n + 1) / (4 * π))) * harmPoly n m) * (C (√((2 * n' + 1) / (4 * π))) * harmPoly n' m')).totalDegree ≤ t := by
    refine (totalDegree_mul _ _).trans ?_
    have h1 : ∀ (c : ℝ) (k : ℕ) (l : ℤ), (C c * harmPoly k l).totalDegree ≤ k := by
      intro c k l
      refine (totalDegree_mul _ _).trans ?_
      rw [totalDegree_C, zero_add]; exact totalDegree_harmPoly k l
    have := h1 (√((2 * n + 1) / (4 * π))) n m
    have := h1 (√((2 * n' + 1) / (4 * π))) n' m'
    omega
  have hev : ∀ a z : ℝ, z ∈ Set.Icc 0 π → eval (dirVec a z) ((C (√((2 * n + 1) / (4 * π))) * harmPoly n m) * (C (√((2 * n' + 1) / (4 * π))) * harmPoly n' m'))
      = realSH n m a z * realSH n' m' a z := by
    intro a z hz
    rw [eval_mul, ← sphPt_dirVec a hz, ← realSH_eval, ← realSH_eval]
  have hex := hd.exact _ hdeg
  rw [sphereMean_congr hev, realSH_orthonormal n n' m m' hm, Finset.sum_congr rfl fun q _ => hev _ _ (hd.zenith q),
    div_eq_iff hQ] at hex
  rw [hex]
  split_ifs <;> ring

/-- Gram matrix of a design. -/
theorem design_gram {Q N t : ℕ} {azi zen : Fin Q → ℝ} (hd : IsTDesign t azi zen) (h : 2 * N ≤ t) :
    (shMat N azi zen).transpose * shMat N azi zen = ((Q : ℝ) / (4 * π)) • 1 := by
  ext i j
  rw [Matrix.mul_apply]
  have hi := acnOrder_le i.2
  have hj := acnOrder_le j.2
  have := design_orth hd (acnOrder i) (acnOrder j) (acnDegree i) (acnDegree j) (acnDegree_abs i) (by omega)
  refine this.trans ?_
  rw [Matrix.smul_apply, Matrix.one_apply, smul_eq_mul]
  by_cases hij : i = j
  · subst hij
    rw [if_pos ⟨rfl, rfl⟩, if_pos rfl, mul_one]
  · rw [if_neg hij, if_neg, mul_zero]
    rintro ⟨h4, h5⟩
    exact hij (Fin.ext (acn_ext h4 h5))

theorem quad_sh_of_orth {Q : ℕ} (azi zen w : Fin Q → ℝ) (t : ℕ)
    (h : ∀ (n : ℕ) (m : ℤ), |m| ≤ n → n ≤ t →
      ∑ q, w q * (realSH n m (azi q) (zen q) * realSH 0 0 (azi q) (zen q)) = if n = 0 ∧ m = 0 then 1 else 0)
    (n : ℕ) (m : ℤ) (hm : |m| ≤ n) (hn : n ≤ t) :
    ∑ q, w q * realSH n m (azi q) (zen q) = if n = 0 ∧ m = 0 then (4 * π) / √(4 * π) else 0 := by
  have h1 := h n m hm hn
  simp only [realSH_zero] at h1
  have h4 : √(4 * π) ≠ 0 := by positivity
  have e : ∑ q, w q * realSH n m (azi q) (zen q) = √(4 * π) * ∑ q, w q * (realSH n m (azi q) (zen q) * (1 / √(4 * π))) := by
    rw [Finset.mul_sum]
    refine Finset.sum_congr rfl fun q _ => ?_
    field_simp
  rw [e, h1]
  have hs : √(4 * π) * √(4 * π) = 4 * π := Real.mul_self_sqrt (by positivity)
  split_ifs
  · nth_rewrite 2 [← hs]; field_simp
  · simp

/-- Quadrature exactness of the product grids. -/
theorem grid_quad {Q : ℕ} (azi zen w : Fin Q → ℝ) (z v : List ℝ) (N : ℕ) (hlen : v.length = z.length)
    (ha : List.ofFn azi = Grids.npTile (Grids.linspaceOpen (2 * π) (2 * N + 2)) z.length)
    (hz : List.ofFn zen = Grids.npRepeat z (2 * N + 2)) (hw : List.ofFn w = Grids.npRepeat v (2 * N + 2))
    (hex : ∀ p : Polynomial ℝ, p.natDegree ≤ 2 * N + 1 →
      ∑ i ∈ Finset.range z.length, v.getD i 0 * p.eval (cos (z.getD i 0)) = π / (N + 1) * J p)
    (hzen : ∀ q, zen q ∈ Set.Icc 0 π) (p : MvPolynomial (Fin 3) ℝ) (hp : p.totalDegree ≤ 2 * N + 1) :
    ∑ q, w q * eval (dirVec (azi q) (zen q)) p = 4 * π * sphereMean (fun a z => eval (dirVec a z) p) :=
  quad_of_sh azi zen w hzen (2 * N + 1) (4 * π) (quad_sh_of_orth azi zen w (2 * N + 1) (fun n m hm hn =>
    Grids.grid_orth azi zen w z v N hlen ha hz hw hex n 0 m 0 hm (by simp) (by omega))) p hp

end Verif.Sph
