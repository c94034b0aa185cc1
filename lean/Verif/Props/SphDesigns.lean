import Verif.Proofs.Designs
import Mathlib.Analysis.InnerProductSpace.Projection.Basic
import Mathlib.Analysis.InnerProductSpace.PiL2
import Mathlib.Analysis.InnerProductSpace.Projection.Submodule
import Mathlib.Analysis.InnerProductSpace.Projection.FiniteDimensional

/-!
C23 (least squares transform), C24 (spherical filter bank), C25 (`sh_mult`), C26 (energy vector),
C79 (orthonormality on the sphere), C80 (quadrature exactness of the analytic grids).
-/

namespace Verif.Props
open Real MvPolynomial Verif.Sph Verif.Grids

/-! ### C79, C80 -/

/-- C79: columns `i` and `j` of the real SH matrix are orthonormal functions on the sphere (surface integral). -/
theorem C79_orthonormal (N : ℕ) (i j : Fin ((N + 1) ^ 2)) :
    ∫ a in (0 : ℝ)..(2 * π), ∫ z in (0 : ℝ)..π, shVec N a z i * shVec N a z j * sin z = if i = j then 1 else 0 := by
  have h := realSH_orthonormal (acnOrder i) (acnOrder j) (acnDegree i) (acnDegree j) (acnDegree_abs i)
  unfold sphereMean at h
  have h4 : (4 * π) ≠ 0 := by positivity
  rw [div_eq_iff h4] at h
  refine h.trans ?_
  by_cases hij : i = j
  · subst hij
    rw [if_pos ⟨rfl, rfl⟩, if_pos rfl]; field_simp
  · rw [if_neg hij, if_neg, zero_mul]
    rintro ⟨h1, h2⟩
    exact hij (Fin.ext (acn_ext h1 h2))

example : ∫ a in (0 : ℝ)..(2 * π), ∫ z in (0 : ℝ)..π, shVec 3 a z 7 * shVec 3 a z 7 * sin z = 1 :=
  (C79_orthonormal 3 7 7).trans (if_pos rfl)

/-- C79: the order-`N` expansions are exactly the restrictions of polynomials of degree at most `N` to the sphere. -/
theorem C79_polynomials (N : ℕ) (f : ℝ → ℝ → ℝ) :
    (∃ c : Fin ((N + 1) ^ 2) → ℝ, ∀ a, ∀ z ∈ Set.Icc 0 π, f a z = ∑ q, c q * shVec N a z q)
    ↔ ∃ p : MvPolynomial (Fin 3) ℝ, p.totalDegree ≤ N ∧ ∀ a, ∀ z ∈ Set.Icc 0 π, f a z = eval (dirVec a z) p := by
  constructor
  · rintro ⟨c, hc⟩
    obtain ⟨p, hp, he⟩ := expand_poly N c
    exact ⟨p, hp, fun a z hz => by rw [hc a z hz, ← he, sphPt_dirVec a hz]⟩
  · rintro ⟨p, hp, he⟩
    obtain ⟨c, hc⟩ := poly_expand N p hp
    exact ⟨c, fun a z hz => by rw [he a z hz, ← hc, sphPt_dirVec a hz]⟩

example : ∃ c : Fin ((2 + 1) ^ 2) → ℝ, ∀ a, ∀ z ∈ Set.Icc (0 : ℝ) π, dirVec a z 0 * dirVec a z 2 = ∑ q, c q * shVec 2 a z q :=
  (C79_polynomials 2 fun a z => dirVec a z 0 * dirVec a z 2).2 ⟨X 0 * X 2,
    (totalDegree_mul _ _).trans (by rw [totalDegree_X, totalDegree_X]), fun a z _ => by simp⟩

theorem ofFn_mem {Q : ℕ} (u : Fin Q → ℝ) (q : Fin Q) : u q ∈ List.ofFn u := List.mem_ofFn.2 ⟨q, rfl⟩

/-- C80 for `equal_angle(N)`: exact for every polynomial of degree at most `2N+1`. -/
theorem C80_equal_angle (N : ℕ) {Q : ℕ} (azi zen w : Fin Q → ℝ)
    (hgrid : equalAngle N = (List.ofFn azi, List.ofFn zen, List.ofFn w)) (p : MvPolynomial (Fin 3) ℝ)
    (hp : p.totalDegree ≤ 2 * N + 1) :
    ∑ q, w q * eval (dirVec (azi q) (zen q)) p
      = ∫ a in (0 : ℝ)..(2 * π), ∫ z in (0 : ℝ)..π, eval (dirVec a z) p * sin z := by
  have hr := (C27_equal_angle N).2.2.2.2.2
  rw [hgrid] at hr
  unfold equalAngle at hgrid
  simp only [Prod.mk.injEq] at hgrid
  obtain ⟨h1, h2, h3⟩ := hgrid
  rw [map_npRepeat] at h3
  rw [grid_quad azi zen w (equalAngleZen N) _ N (by simp)
    (by rw [equalAngleZen_length]; exact h1.symm) h2.symm h3.symm (equalAngle_hex N)
    (fun q => ⟨(hr _ (ofFn_mem zen q)).1.le, (hr _ (ofFn_mem zen q)).2.le⟩) p hp, sphereMean]
  have h4 : (4 * π) ≠ 0 := by positivity
  field_simp

/-- `C80_equal_angle`: `x² z` on the grid of order one. -/
example : ∃ azi zen w : Fin ((2 * 1 + 2) ^ 2) → ℝ, ∑ q, w q * eval (dirVec (azi q) (zen q)) (X 0 ^ 2 * X 2 : MvPolynomial (Fin 3) ℝ)
    = ∫ a in (0 : ℝ)..(2 * π), ∫ z in (0 : ℝ)..π, eval (dirVec a z) (X 0 ^ 2 * X 2 : MvPolynomial (Fin 3) ℝ) * sin z := by
  obtain ⟨h1, h2, h3, -⟩ := C27_equal_angle 1
  have key : ∀ (n : ℕ) (l : List ℝ), l.length = n → List.ofFn (fun i : Fin n => l.getD i 0) = l := by
    intro n l hl
    apply List.ext_getElem
    · simp [hl]
    · intro i a b; simp [List.getD_eq_getElem?_getD, b]
  refine ⟨fun i => (equalAngle 1).1.getD i 0, fun i => (equalAngle 1).2.1.getD i 0, fun i => (equalAngle 1).2.2.getD i 0, C80_equal_angle 1 _ _ _ ?_ _ ?_⟩
  · rw [key _ _ h1, key _ _ h2, key _ _ h3]
  · refine (totalDegree_mul _ _).trans ?_
    rw [totalDegree_X_pow, totalDegree_X]

/-- C80 for `gauss(N)`: exact for every polynomial of degree at most `2N+1`. -/
theorem C80_gauss (leggauss : ℕ → List ℝ × List ℝ) (N : ℕ) (hl : IsGaussLegendre (N + 1) (leggauss (N + 1)))
    {Q : ℕ} (azi zen w : Fin Q → ℝ)
    (hgrid : gauss leggauss N = (List.ofFn azi, List.ofFn zen, List.ofFn w)) (p : MvPolynomial (Fin 3) ℝ)
    (hp : p.totalDegree ≤ 2 * N + 1) :
    ∑ q, w q * eval (dirVec (azi q) (zen q)) p
      = ∫ a in (0 : ℝ)..(2 * π), ∫ z in (0 : ℝ)..π, eval (dirVec a z) p * sin z := by
  have hr := (C27_gauss leggauss N hl).2.2.2.2.2
  rw [hgrid] at hr
  unfold gauss at hgrid
  simp only [Prod.mk.injEq] at hgrid
  obtain ⟨h1, h2, h3⟩ := hgrid
  rw [map_npRepeat] at h3
  rw [grid_quad azi zen w _ _ N (by rw [List.length_map, List.length_map, hl.nodes, hl.weights])
    (by rw [List.length_map, hl.nodes]; exact h1.symm) h2.symm h3.symm (gauss_hex N _ hl)
    (fun q => ⟨(hr _ (ofFn_mem zen q)).1.le, (hr _ (ofFn_mem zen q)).2.le⟩) p hp, sphereMean]
  have h4 : (4 * π) ≠ 0 := by positivity
  field_simp

/-! ### A concrete 3-design: the eight points of `gauss(1)` -/

theorem toFn {n : ℕ} (l : List ℝ) (h : l.length = n) : ∃ u : Fin n → ℝ, l = List.ofFn u :=
  ⟨fun q => l[q]'(by omega), by
    apply List.ext_getElem (by simp [h])
    intro i h1 h2; rw [List.getElem_ofFn]; rfl⟩

/-- The grid hypothesis of the theorems above is met for the two-point rule, with equal weights. -/
theorem gauss_one_grid : ∃ azi zen : Fin 8 → ℝ, gauss (fun _ => ([-(1 / √3), 1 / √3], [1, 1])) 1
    = (List.ofFn azi, List.ofFn zen, List.ofFn fun _ : Fin 8 => π / 2) := by
  have hG := C27_gauss (fun _ => ([-(1 / √3), 1 / √3], [1, 1])) 1 isGauss_two
  obtain ⟨a, ha⟩ := toFn (n := 8) _ hG.1
  obtain ⟨z, hz⟩ := toFn (n := 8) _ hG.2.1
  refine ⟨a, z, ?_⟩
  rw [← ha, ← hz]
  have : (gauss (fun _ => ([-(1 / √3), 1 / √3], [1, 1])) 1).2.2 = List.ofFn fun _ : Fin 8 => π / 2 := by
    simp [gauss, npRepeat, List.replicate]
    ring_nf
  rw [← this]

theorem cube_design : ∃ azi zen : Fin 8 → ℝ, IsTDesign 3 azi zen := by
  obtain ⟨azi, zen, hg⟩ := gauss_one_grid
  have hr := (C27_gauss (fun _ => ([-(1 / √3), 1 / √3], [1, 1])) 1 isGauss_two).2.2.2.2.2
  rw [hg] at hr
  refine ⟨azi, zen, by norm_num, fun q => ⟨(hr _ (ofFn_mem zen q)).1.le, (hr _ (ofFn_mem zen q)).2.le⟩, fun p hp => ?_⟩
  have h := C80_gauss _ 1 isGauss_two azi zen _ hg p (by omega)
  rw [sphereMean, ← h, ← Finset.mul_sum]
  have := pi_ne_zero
  field_simp
  ring

/-- `C80_gauss`: `x² z` on the Gauss grid of order one. -/
example : ∃ azi zen : Fin 8 → ℝ, ∑ q, π / 2 * eval (dirVec (azi q) (zen q)) (X 0 ^ 2 * X 2 : MvPolynomial (Fin 3) ℝ)
    = ∫ a in (0 : ℝ)..(2 * π), ∫ z in (0 : ℝ)..π, eval (dirVec a z) (X 0 ^ 2 * X 2 : MvPolynomial (Fin 3) ℝ) * sin z := by
  obtain ⟨azi, zen, hg⟩ := gauss_one_grid
  refine ⟨azi, zen, C80_gauss _ 1 isGauss_two azi zen _ hg _ ?_⟩
  refine (totalDegree_mul _ _).trans ?_
  rw [totalDegree_X_pow, totalDegree_X]

/-! ### C23 -/

theorem sum_sq_line {n : ℕ} (u v : Fin n → ℝ) (t : ℝ) :
    ∑ i, (u i + t * v i) ^ 2 = ∑ i, u i ^ 2 + 2 * t * ∑ i, u i * v i + t ^ 2 * ∑ i, v i ^ 2 := by
  rw [Finset.mul_sum, Finset.mul_sum, ← Finset.sum_add_distrib, ← Finset.sum_add_distrib]
  exact Finset.sum_congr rfl fun i _ => by ring

theorem lin_zero {a b : ℝ} (h : ∀ t : ℝ, 0 ≤ 2 * t * a + t ^ 2 * b) : a = 0 := by
  by_contra ha
  have h1 := h (-a / (|b| + 1))
  have hb : 0 < |b| + 1 := by positivity
  have h2 : 2 * (-a / (|b| + 1)) * a + (-a / (|b| + 1)) ^ 2 * b = a ^ 2 / (|b| + 1) ^ 2 * (b - 2 * (|b| + 1)) := by
    field_simp; ring
  rw [h2] at h1
  have h3 : 0 < a ^ 2 / (|b| + 1) ^ 2 := by positivity
  have h4 : b - 2 * (|b| + 1) < 0 := by have := le_abs_self b; have := abs_nonneg b; linarith
  nlinarith

theorem lstsq_normal {Q K S : ℕ} {A : Matrix (Fin Q) (Fin K) ℝ} {b : Matrix (Fin Q) (Fin S) ℝ} {x : Matrix (Fin K) (Fin S) ℝ}
    (h : IsLstsq A b x) : A.transpose * (A * x - b) = 0 := by
  ext k s
  have hmin := h.min s
  set u : Fin Q → ℝ := fun q => (A.mulVec (fun k => x k s)) q - b q s with hu
  have hl : ∀ t : ℝ, 0 ≤ 2 * t * (∑ q, u q * A q k) + t ^ 2 * ∑ q, A q k ^ 2 := by
    intro t
    have h1 := hmin ((fun k => x k s) + t • Pi.single k 1)
    have e : ∀ q, (A.mulVec ((fun k => x k s) + t • Pi.single k 1)) q - b q s = u q + t * A q k := by
      intro q
      rw [Matrix.mulVec_add, Matrix.mulVec_smul, Matrix.mulVec_single_one]
      simp only [Pi.add_apply, Pi.smul_apply, smul_eq_mul, Matrix.col_apply, hu]; ring
    simp only [e] at h1
    rw [sum_sq_line u (fun q => A q k) t] at h1
    have : ∑ q, ((A.mulVec fun k => x k s) q - b q s) ^ 2 = ∑ q, u q ^ 2 := rfl
    linarith
  have := lin_zero hl
  rw [Matrix.mul_apply, Matrix.zero_apply, ← this]
  refine Finset.sum_congr rfl fun q _ => ?_
  rw [mul_comm]; rfl

theorem lstsq_orth_ker {Q K S : ℕ} {A : Matrix (Fin Q) (Fin K) ℝ} {b : Matrix (Fin Q) (Fin S) ℝ} {x : Matrix (Fin K) (Fin S) ℝ}
    (h : IsLstsq A b x) (s : Fin S) (y : Fin K → ℝ) (hy : A.mulVec y = 0) : ∑ k, x k s * y k = 0 := by
  refine lin_zero (b := ∑ k, y k ^ 2) fun t => ?_
  have h1 := h.least s ((fun k => x k s) + t • y) (by rw [Matrix.mulVec_add, Matrix.mulVec_smul, hy]; simp)
  have e : ∑ k, ((fun k => x k s) + t • y) k ^ 2 = ∑ k, (x k s + t * y k) ^ 2 := rfl
  rw [e, sum_sq_line] at h1
  linarith

/-- C23: coefficients of a band-limited function are recovered when the SH matrix has full column rank. -/
theorem C23_recover {N Q S : ℕ} (lstsq : (K : ℕ) → Matrix (Fin Q) (Fin K) ℝ → Matrix (Fin Q) (Fin S) ℝ → Matrix (Fin K) (Fin S) ℝ)
    (hspec : ∀ K A b, IsLstsq A b (lstsq K A b)) (F : Matrix (Fin ((N + 1) ^ 2)) (Fin S) ℝ) (azi zen : Fin Q → ℝ)
    (hrank : LinearIndependent ℝ (shMat N azi zen).col) :
    (inverseSht F azi zen (some N)).map (fun f => shtLstsq lstsq f N azi zen) = .ok F := by
  have key : inverseSht F azi zen (some N) = .ok (shMat N azi zen * F) := by
    unfold inverseSht
    rw [if_neg (by simp)]
    exact (dif_pos (le_refl ((N + 1) ^ 2))).trans (by congr 1)
  rw [key]
  show Except.ok _ = Except.ok _
  congr 1
  have hl := hspec _ (shMat N azi zen) (shMat N azi zen * F)
  set x := lstsq _ (shMat N azi zen) (shMat N azi zen * F)
  show x = F
  have hinj : Function.Injective (shMat N azi zen).mulVec := Matrix.mulVec_injective_iff.2 hrank
  ext k s
  have h0 := hl.min s (fun k => F k s)
  have hz : ∀ q, (shMat N azi zen).mulVec (fun k => F k s) q - (shMat N azi zen * F) q s = 0 := by
    intro q; rw [sub_eq_zero]; rfl
  simp only [hz] at h0
  have h1 : ∑ q, ((shMat N azi zen).mulVec (fun k => x k s) q - (shMat N azi zen * F) q s) ^ 2 = 0 :=
    le_antisymm (by simpa using h0) (Finset.sum_nonneg fun q _ => sq_nonneg _)
  rw [Finset.sum_eq_zero_iff_of_nonneg (fun q _ => sq_nonneg _)] at h1
  have h2 : (shMat N azi zen).mulVec (fun k => x k s) = (shMat N azi zen).mulVec (fun k => F k s) := by
    ext q
    have h3 := h1 q (Finset.mem_univ _)
    rw [sq_eq_zero_iff, sub_eq_zero] at h3
    exact h3
  exact congrFun (hinj h2) k

/-- C23: on every grid the returned coefficients solve the normal equations and are orthogonal to everything the grid cannot see,
i.e. they are the minimum-norm least-squares solution. -/
theorem C23_min_norm {N Q S : ℕ} (lstsq : (K : ℕ) → Matrix (Fin Q) (Fin K) ℝ → Matrix (Fin Q) (Fin S) ℝ → Matrix (Fin K) (Fin S) ℝ)
    (hspec : ∀ K A b, IsLstsq A b (lstsq K A b)) (f : Matrix (Fin Q) (Fin S) ℝ) (azi zen : Fin Q → ℝ) :
    (shMat N azi zen).transpose * (shMat N azi zen * shtLstsq lstsq f N azi zen - f) = 0
    ∧ ∀ (s : Fin S) (y : Fin ((N + 1) ^ 2) → ℝ), (shMat N azi zen).mulVec y = 0 →
      ∑ k, shtLstsq lstsq f N azi zen k s * y k = 0 :=
  ⟨lstsq_normal (hspec _ _ f), fun s y hy => lstsq_orth_ker (hspec _ _ f) s y hy⟩

/-- The least-squares specification is met by some solver, for every matrix. -/
theorem exists_lstsq {Q K S : ℕ} (A : Matrix (Fin Q) (Fin K) ℝ) (b : Matrix (Fin Q) (Fin S) ℝ) : ∃ x, IsLstsq A b x := by
  classical
  let L : EuclideanSpace ℝ (Fin K) →ₗ[ℝ] EuclideanSpace ℝ (Fin Q) := Matrix.toLpLin 2 2 A
  have hL : ∀ y i, (L y) i = A.mulVec y.ofLp i := fun y i => rfl
  have hcol : ∀ s : Fin S, ∃ x : EuclideanSpace ℝ (Fin K),
      (∀ y : EuclideanSpace ℝ (Fin K), ‖L x - WithLp.toLp 2 (fun q => b q s)‖ ≤ ‖L y - WithLp.toLp 2 (fun q => b q s)‖) ∧
      ∀ y : EuclideanSpace ℝ (Fin K), ‖L y - WithLp.toLp 2 (fun q => b q s)‖ = ‖L x - WithLp.toLp 2 (fun q => b q s)‖ → ‖x‖ ≤ ‖y‖ := by
    intro s
    set β : EuclideanSpace ℝ (Fin Q) := WithLp.toLp 2 (fun q => b q s)
    obtain ⟨x0, hx0⟩ : ∃ x0, L x0 = (LinearMap.range L).starProjection β :=
      LinearMap.mem_range.1 ((LinearMap.range L).starProjection_apply_mem β)
    have hker : L (x0 - (LinearMap.ker L).starProjection x0) = L x0 := by
      rw [map_sub, LinearMap.mem_ker.1 ((LinearMap.ker L).starProjection_apply_mem x0), sub_zero]
    have horth : ∀ y, inner ℝ (L y) (β - L x0) = 0 := by
      intro y
      have := (LinearMap.range L).sub_starProjection_mem_orthogonal β
      rw [← hx0] at this
      exact (Submodule.mem_orthogonal _ _).1 this _ (LinearMap.mem_range_self L y)
    have hpy : ∀ y, ‖L y - β‖ ^ 2 = ‖L y - L x0‖ ^ 2 + ‖L x0 - β‖ ^ 2 := by
      intro y
      have h0 : inner ℝ (L y - L x0) (L x0 - β) = 0 := by
        rw [← map_sub, ← neg_sub β, inner_neg_right, horth, neg_zero]
      have := norm_add_sq_real (L y - L x0) (L x0 - β)
      rw [h0] at this
      rw [show L y - β = (L y - L x0) + (L x0 - β) by abel, this]; ring
    refine ⟨x0 - (LinearMap.ker L).starProjection x0, ?_, ?_⟩
    · intro y
      rw [hker]
      have := hpy y
      have h2 : ‖L x0 - β‖ ^ 2 ≤ ‖L y - β‖ ^ 2 := by rw [this]; nlinarith [sq_nonneg ‖L y - L x0‖]
      exact (pow_le_pow_iff_left₀ (norm_nonneg _) (norm_nonneg _) two_ne_zero).1 h2
    · intro y hy
      rw [hker] at hy
      have h1 := hpy y
      rw [hy] at h1
      have h2 : ‖L y - L x0‖ ^ 2 = 0 := by linarith
      have h3 : L y = L x0 := by
        have := pow_eq_zero_iff (two_ne_zero) |>.1 h2
        exact sub_eq_zero.1 (norm_eq_zero.1 this)
      have hk : y - (x0 - (LinearMap.ker L).starProjection x0) ∈ LinearMap.ker L := by
        rw [LinearMap.mem_ker, map_sub, hker, h3, sub_self]
      have h4 : inner ℝ (y - (x0 - (LinearMap.ker L).starProjection x0)) (x0 - (LinearMap.ker L).starProjection x0) = 0 :=
        (Submodule.mem_orthogonal _ _).1 ((LinearMap.ker L).sub_starProjection_mem_orthogonal x0) _ hk
      have h5 := norm_add_sq_real (y - (x0 - (LinearMap.ker L).starProjection x0)) (x0 - (LinearMap.ker L).starProjection x0)
      rw [h4, sub_add_cancel] at h5
      have h6 : ‖x0 - (LinearMap.ker L).starProjection x0‖ ^ 2 ≤ ‖y‖ ^ 2 := by
        rw [h5]; nlinarith [sq_nonneg ‖y - (x0 - (LinearMap.ker L).starProjection x0)‖]
      exact (pow_le_pow_iff_left₀ (norm_nonneg _) (norm_nonneg _) two_ne_zero).1 h6
  choose x hx1 hx2 using hcol
  have hn : ∀ (s : Fin S) (y : Fin K → ℝ), ∑ q, ((A.mulVec y) q - b q s) ^ 2
      = ‖L (WithLp.toLp 2 y) - WithLp.toLp 2 (fun q => b q s)‖ ^ 2 := by
    intro s y
    rw [EuclideanSpace.norm_sq_eq]
    refine Finset.sum_congr rfl fun q _ => ?_
    rw [Real.norm_eq_abs, sq_abs]; rfl
  have hn2 : ∀ (y : Fin K → ℝ), ∑ k, y k ^ 2 = ‖(WithLp.toLp 2 y : EuclideanSpace ℝ (Fin K))‖ ^ 2 := by
    intro y
    rw [EuclideanSpace.norm_sq_eq]
    refine Finset.sum_congr rfl fun q _ => ?_
    rw [Real.norm_eq_abs, sq_abs]
  refine ⟨fun k s => x s k, ⟨fun s y => ?_, fun s y hy => ?_⟩⟩
  · rw [hn, hn]
    exact pow_le_pow_left₀ (norm_nonneg _) (hx1 s _) 2
  · rw [hn2, hn2]
    rw [hn, hn] at hy
    have := (pow_left_inj₀ (norm_nonneg _) (norm_nonneg _) two_ne_zero).1 hy
    exact pow_le_pow_left₀ (norm_nonneg _) (hx2 s _ this) 2

/-- Full column rank is met by every design of sufficient degree, e.g. order one on the cube. -/
theorem design_rank {Q N t : ℕ} {azi zen : Fin Q → ℝ} (hd : IsTDesign t azi zen) (h : 2 * N ≤ t) :
    LinearIndependent ℝ (shMat N azi zen).col := by
  rw [← Matrix.mulVec_injective_iff]
  have hQ : ((Q : ℝ) / (4 * π)) ≠ 0 := by have := hd.pos; positivity
  intro x y hxy
  have h2 : ∀ v : Fin ((N + 1) ^ 2) → ℝ, (shMat N azi zen).transpose.mulVec ((shMat N azi zen).mulVec v) = ((Q : ℝ) / (4 * π)) • v := by
    intro v
    rw [Matrix.mulVec_mulVec, design_gram hd h, Matrix.smul_mulVec, Matrix.one_mulVec]
  have := h2 x
  rw [hxy, h2 y] at this
  exact (smul_right_injective _ hQ this).symm

example (F : Matrix (Fin ((1 + 1) ^ 2)) (Fin 2) ℝ) : ∃ (azi zen : Fin 8 → ℝ)
    (lstsq : (K : ℕ) → Matrix (Fin 8) (Fin K) ℝ → Matrix (Fin 8) (Fin 2) ℝ → Matrix (Fin K) (Fin 2) ℝ),
    (inverseSht F azi zen (some 1)).map (fun f => shtLstsq lstsq f 1 azi zen) = .ok F := by
  obtain ⟨azi, zen, hd⟩ := cube_design
  choose l hl using fun (K : ℕ) (A : Matrix (Fin 8) (Fin K) ℝ) (b : Matrix (Fin 8) (Fin 2) ℝ) => exists_lstsq A b
  exact ⟨azi, zen, l, C23_recover l hl F azi zen (design_rank hd (by norm_num))⟩

/-! ### C24 -/

/-- Specification of `np.linalg.pinv`: the four Penrose conditions. -/
structure IsPinv {m n : ℕ} (A : Matrix (Fin m) (Fin n) ℝ) (P : Matrix (Fin n) (Fin m) ℝ) : Prop where
  apa : A * P * A = A
  pap : P * A * P = P
  ap : (A * P).transpose = A * P
  pa : (P * A).transpose = P * A

theorem pinv_left {m n : ℕ} {A : Matrix (Fin m) (Fin n) ℝ} {P : Matrix (Fin n) (Fin m) ℝ} (h : IsPinv A P)
    (hrank : LinearIndependent ℝ A.col) : P * A = 1 := by
  have hinj : Function.Injective A.mulVec := Matrix.mulVec_injective_iff.2 hrank
  have key : A * (P * A) = A * (1 : Matrix (Fin n) (Fin n) ℝ) := by rw [← Matrix.mul_assoc, h.apa, Matrix.mul_one]
  ext i j
  have h1 : A.mulVec ((P * A).col j) = A.mulVec ((1 : Matrix (Fin n) (Fin n) ℝ).col j) := by
    ext q
    exact congrFun (congrFun key q) j
  exact congrFun (hinj h1) i

theorem weighted_mul {J N t : ℕ} {azi zen : Fin (J + 1) → ℝ} (hd : IsTDesign t azi zen) (h : 2 * N ≤ t) (b c : ℕ → ℝ)
    (i j : Fin ((N + 1) ^ 2)) : ((weightedShMat N azi zen b).transpose * weightedShMat N azi zen c) i j
      = if i = j then b (acnOrder i) * c (acnOrder i) * (((J + 1 : ℕ) : ℝ) / (4 * π)) else 0 := by
  have hg := design_gram hd h
  have h1 := congrFun (congrFun hg i) j
  rw [Matrix.mul_apply, Matrix.smul_apply, Matrix.one_apply, smul_eq_mul] at h1
  rw [Matrix.mul_apply]
  have e : ∀ q, (weightedShMat N azi zen b).transpose i q * weightedShMat N azi zen c q j
      = b (acnOrder i) * c (acnOrder j) * ((shMat N azi zen).transpose i q * shMat N azi zen q j) := by
    intro q
    show (b (acnOrder i) * shMat N azi zen q i) * (c (acnOrder j) * shMat N azi zen q j) = _
    rw [Matrix.transpose_apply]; ring
  rw [Finset.sum_congr rfl fun q _ => e q, ← Finset.mul_sum, h1]
  by_cases hij : i = j
  · subst hij; rw [if_pos rfl, if_pos rfl, mul_one]
  · rw [if_neg hij, if_neg hij, mul_zero, mul_zero]

theorem weighted_first (N : ℕ) {J : ℕ} (azi zen : Fin J → ℝ) (c : ℕ → ℝ) (j : Fin J) :
    weightedShMat N azi zen c j ⟨0, sq_pos' N⟩ = c 0 * (1 / √(4 * π)) := by
  show repVec N c _ * shMat N azi zen j _ = _
  have h : shMat N azi zen j ⟨0, sq_pos' N⟩ = 1 / √(4 * π) := realSH_zero _ _
  rw [h]; rfl

/-- C24 for `mode='perfect'`: `B A = 1` on every design of degree `2N`, for every pattern without zeros. -/
theorem C24_perfect {J N t : ℕ} (azi zen : Fin (J + 1) → ℝ) (hd : IsTDesign t azi zen) (ht : 2 * N ≤ t) (c : ℕ → ℝ)
    (hc : ∀ n ≤ N, c n ≠ 0) (pinv) :
    ∃ A B, designFilterbank N azi zen c .perfect pinv = .ok (A, B) ∧ B * A = 1
      ∧ ∀ j q, A j q = c (acnOrder q) * shMat N azi zen j q := by
  refine ⟨_, _, rfl, ?_, fun _ _ => rfl⟩
  rw [Matrix.smul_mul]
  ext i j
  rw [Matrix.smul_apply, smul_eq_mul, Matrix.one_apply, weighted_mul hd ht]
  have hrow := weighted_first N azi zen c 0
  show √(4 * π) / (weightedShMat N azi zen c 0 ⟨0, sq_pos' N⟩ * ((J + 1 : ℕ) : ℝ)) * _ = _
  rw [hrow]
  by_cases hij : i = j
  · subst hij
    rw [if_pos rfl, if_pos rfl]
    have h0 := hc 0 (Nat.zero_le _)
    have hi := hc (acnOrder i) (acnOrder_le i.2)
    have hs : √(4 * π) * √(4 * π) = 4 * π := Real.mul_self_sqrt (by positivity)
    have h4 : √(4 * π) ≠ 0 := by positivity
    have hJ : ((J : ℝ) + 1) ≠ 0 := by positivity
    have hp := pi_ne_zero
    push_cast
    field_simp
    rw [sq, hs]
  · rw [if_neg hij, if_neg hij, mul_zero]

/-- C24 for `mode='pinv'`: a left inverse whenever the analysis matrix has full column rank. -/
theorem C24_pinv {J N : ℕ} (azi zen : Fin (J + 1) → ℝ) (c : ℕ → ℝ)
    (pinv : Matrix (Fin (J + 1)) (Fin ((N + 1) ^ 2)) ℝ → Matrix (Fin ((N + 1) ^ 2)) (Fin (J + 1)) ℝ)
    (hpinv : ∀ A, IsPinv A (pinv A))
    (hrank : LinearIndependent ℝ (Matrix.of fun (j : Fin (J + 1)) (q : Fin ((N + 1) ^ 2)) =>
      c (acnOrder q) * shMat N azi zen j q).col) :
    ∃ A B, designFilterbank N azi zen c .pinv pinv = .ok (A, B) ∧ B * A = 1
      ∧ ∀ j q, A j q = c (acnOrder q) * shMat N azi zen j q :=
  ⟨_, _, rfl, pinv_left (hpinv _) hrank, fun _ _ => rfl⟩

theorem sum_weighted_sq (N : ℕ) (c : ℕ → ℝ) (a z : ℝ) (hz : z ∈ Set.Icc 0 π) :
    ∑ q : Fin ((N + 1) ^ 2), (c (acnOrder q) * shVec N a z q) ^ 2
      = ∑ n ∈ Finset.range (N + 1), c n ^ 2 * ((2 * (n : ℝ) + 1) / (4 * π)) := by
  refine (sum_acn N (fun n m => (c n * realSH n m a z) ^ 2)).trans ?_
  refine Finset.sum_congr rfl fun n _ => ?_
  have h2 := C18_addition n a z a z hz hz
  have h3 : evalLegendre n (cos (Utils.angleBetween (dirVec a z) (dirVec a z))) = 1 := by
    rw [cos_angleBetween]
    have : dotProduct (dirVec a z) (dirVec a z) = 1 := by
      have := sphPt_norm a z
      rw [sphPt_dirVec a hz] at this
      rw [dotProduct, Fin.sum_univ_three]; linarith
    rw [this, evalLegendre_one]
  rw [h3, mul_one] at h2
  rw [← h2, Finset.mul_sum]
  exact Finset.sum_congr rfl fun m _ => by ring

theorem energy_sum {J N t : ℕ} {azi zen : Fin (J + 1) → ℝ} (hd : IsTDesign t azi zen) (ht : 2 * N ≤ t) (c : ℕ → ℝ)
    (y : Fin ((N + 1) ^ 2) → ℝ) : ∑ j, ((weightedShMat N azi zen c).mulVec y j) ^ 2
        = ((J + 1 : ℕ) : ℝ) / (4 * π) * ∑ q : Fin ((N + 1) ^ 2), (c (acnOrder q) * y q) ^ 2 := by
  set A := weightedShMat N azi zen c with hAdef
  have e1 : ∑ j, (A.mulVec y j) ^ 2 = dotProduct y ((A.transpose * A).mulVec y) := by
    rw [← Matrix.mulVec_mulVec, Matrix.dotProduct_mulVec, Matrix.vecMul_transpose]
    exact Finset.sum_congr rfl fun j _ => sq _
  rw [e1, dotProduct, Finset.mul_sum]
  refine Finset.sum_congr rfl fun q _ => ?_
  have : (A.transpose * A).mulVec y q = c (acnOrder q) * c (acnOrder q) * (((J + 1 : ℕ) : ℝ) / (4 * π)) * y q := by
    unfold Matrix.mulVec
    rw [dotProduct, Finset.sum_eq_single q]
    · rw [hAdef, weighted_mul hd ht, if_pos rfl]
    · intro b _ hb; rw [hAdef, weighted_mul hd ht, if_neg (Ne.symm hb), zero_mul]
    · intro h; exact absurd (Finset.mem_univ _) h
  rw [this]; ring

/-- C24 for `mode='energy'`: the resynthesis matrix of `'perfect'` up to one common factor. -/
theorem C24_energy_common {J N : ℕ} (azi zen : Fin (J + 1) → ℝ) (c : ℕ → ℝ) (hc : c 0 ≠ 0) (pinv) :
    ∃ A B B', designFilterbank N azi zen c .energy pinv = .ok (A, B) ∧ designFilterbank N azi zen c .perfect pinv = .ok (A, B')
      ∧ ∃ s : ℝ, B = s • B' := by
  refine ⟨_, _, _, rfl, rfl, ?_⟩
  have hne : √(4 * π) / (weightedShMat N azi zen c 0 ⟨0, sq_pos' N⟩ * ((J + 1 : ℕ) : ℝ)) ≠ 0 := by
    rw [weighted_first]
    have : √(4 * π) ≠ 0 := by positivity
    have : ((J + 1 : ℕ) : ℝ) ≠ 0 := by positivity
    positivity
  have key : ∀ {α : Type} [AddCommGroup α] [Module ℝ α] (x y : ℝ) (v : α), y ≠ 0 → ∃ s : ℝ, x • v = s • (y • v) :=
    fun x y v hy => ⟨x / y, by rw [smul_smul, div_mul_cancel₀ _ hy]⟩
  exact key _ _ _ hne

/-- `C24_energy_common`: two directions, order one. -/
example : ∃ A B B', designFilterbank (J := 1) 1 ![0, 1] ![1, 2] (fun n => 1 / ((n : ℝ) + 1)) .energy (fun _ => 0) = .ok (A, B) ∧
    designFilterbank (J := 1) 1 ![0, 1] ![1, 2] (fun n => 1 / ((n : ℝ) + 1)) .perfect (fun _ => 0) = .ok (A, B') ∧ ∃ s : ℝ, B = s • B' :=
  C24_energy_common (J := 1) (N := 1) ![0, 1] ![1, 2] (fun n => 1 / ((n : ℝ) + 1)) (by norm_num) (fun _ => 0)

/-- C24 for `mode='energy'`: for a plane wave from any direction, the energies which the sectors contribute to the omnidirectional
channel add up to the energy of that channel. -/
theorem C24_energy {J N t : ℕ} (azi zen : Fin (J + 1) → ℝ) (hd : IsTDesign t azi zen) (ht : 2 * N ≤ t) (c : ℕ → ℝ)
    (hc : c 0 ≠ 0) (pinv) : ∃ A B, designFilterbank N azi zen c .energy pinv = .ok (A, B) ∧
      ∀ a, ∀ z ∈ Set.Icc 0 π, ∑ j, (B ⟨0, sq_pos' N⟩ j * A.mulVec (shVec N a z) j) ^ 2 = shVec N a z ⟨0, sq_pos' N⟩ ^ 2 := by
  refine ⟨_, _, rfl, fun a z hz => ?_⟩
  set E := ∑ n ∈ Finset.range (N + 1), c n ^ 2 * ((2 * (n : ℝ) + 1) / (4 * π)) with hE
  have hpos : 0 < E := by
    refine Finset.sum_pos' (fun n _ => by positivity) ⟨0, by simp, ?_⟩
    have : 0 < c 0 ^ 2 := by positivity
    positivity
  have hrow : ∑ q : Fin ((N + 1) ^ 2), weightedShMat N azi zen c 0 q * weightedShMat N azi zen c 0 q = E := by
    rw [hE, ← sum_weighted_sq N c (azi 0) (zen 0) (hd.zenith 0)]
    exact Finset.sum_congr rfl fun q _ => by rw [sq]; rfl
  have hcast : ∑ k : Fin ((N + 1) ^ 2 - 1 + 1), weightedShMat N azi zen c 0 (Fin.cast (Nat.sub_add_cancel (sq_pos' N)) k)
      * weightedShMat N azi zen c 0 (Fin.cast (Nat.sub_add_cancel (sq_pos' N)) k) = E := by
    rw [← hrow]
    exact Equiv.sum_comp (finCongr (Nat.sub_add_cancel (sq_pos' N)))
      (fun q => weightedShMat N azi zen c 0 q * weightedShMat N azi zen c 0 q)
  have hB : ∀ j, ((√((4 * π) / ((∑ k : Fin ((N + 1) ^ 2 - 1 + 1),
      weightedShMat N azi zen c 0 (Fin.cast (Nat.sub_add_cancel (sq_pos' N)) k)
      * weightedShMat N azi zen c 0 (Fin.cast (Nat.sub_add_cancel (sq_pos' N)) k)) * ((J + 1 : ℕ) : ℝ)))) •
      (weightedShMat N azi zen (fun n => 1 / (c n / c 0))).transpose) ⟨0, sq_pos' N⟩ j
      = √((4 * π) / (E * ((J + 1 : ℕ) : ℝ))) * (1 / √(4 * π)) := by
    intro j
    rw [hcast, Matrix.smul_apply, smul_eq_mul, Matrix.transpose_apply, weighted_first, div_self hc, div_one, one_mul]
  have hy0 : shVec N a z ⟨0, sq_pos' N⟩ = 1 / √(4 * π) := realSH_zero _ _
  have hterm : ∀ (u v : Fin (J + 1) → ℝ) (b : ℝ), (∀ j, u j = b) → ∑ j, (u j * v j) ^ 2 = ∑ j, b ^ 2 * v j ^ 2 := by
    intro u v b h
    exact Finset.sum_congr rfl fun j _ => by rw [h j, mul_pow]
  refine (hterm _ _ _ hB).trans ?_
  rw [← Finset.mul_sum, energy_sum hd ht, sum_weighted_sq N c a z hz, ← hE, hy0, mul_pow, Real.sq_sqrt (by positivity)]
  have hp := pi_ne_zero
  have h0 := hpos.ne'
  have hJ : ((J : ℝ) + 1) ≠ 0 := by positivity
  have h4 : √(4 * π) ≠ 0 := by positivity
  push_cast
  field_simp

/-- `C24_energy`, `C24_energy_common`: the corners of a cube. -/
example : ∃ (azi zen : Fin 8 → ℝ) (A : Matrix (Fin 8) (Fin ((1 + 1) ^ 2)) ℝ) (B : Matrix (Fin ((1 + 1) ^ 2)) (Fin 8) ℝ),
    designFilterbank (J := 7) 1 azi zen (fun n => 1 / (n + 1)) .energy (fun _ => 0) = .ok (A, B) ∧
    ∑ j, (B ⟨0, sq_pos' 1⟩ j * A.mulVec (shVec 1 0 1) j) ^ 2 = shVec 1 0 1 ⟨0, sq_pos' 1⟩ ^ 2 := by
  obtain ⟨azi, zen, hd⟩ := cube_design
  obtain ⟨A, B, h1, h2⟩ := C24_energy (J := 7) (N := 1) azi zen hd (by norm_num) (fun n => 1 / ((n : ℝ) + 1)) (by norm_num) (fun _ => 0)
  exact ⟨azi, zen, A, B, h1, h2 0 1 ⟨by norm_num, by have := Real.pi_gt_three; linarith⟩⟩

/-- C24: any other mode is rejected. -/
theorem C24_other {J N : ℕ} (azi zen : Fin (J + 1) → ℝ) (c : ℕ → ℝ) (pinv) :
    designFilterbank N azi zen c .other pinv = .error .valueError := rfl

/-- A pseudo-inverse exists whenever the Gram matrix is invertible. -/
theorem exists_pinv_of_gram {m n : ℕ} (A : Matrix (Fin m) (Fin n) ℝ) (G : Matrix (Fin n) (Fin n) ℝ) (h1 : G * (A.transpose * A) = 1)
    (h2 : G.transpose = G) : IsPinv A (G * A.transpose) := by
  have h3 : G * A.transpose * A = 1 := by rw [Matrix.mul_assoc, h1]
  refine ⟨?_, ?_, ?_, ?_⟩
  · rw [Matrix.mul_assoc, h3, Matrix.mul_one]
  · rw [h3, Matrix.one_mul]
  · rw [Matrix.transpose_mul, Matrix.transpose_mul, Matrix.transpose_transpose, h2, ← Matrix.mul_assoc]
  · rw [h3, Matrix.transpose_one]

example : ∃ (azi zen : Fin 8 → ℝ) (A : Matrix (Fin 8) (Fin ((1 + 1) ^ 2)) ℝ) (B : Matrix (Fin ((1 + 1) ^ 2)) (Fin 8) ℝ),
    designFilterbank (J := 7) 1 azi zen (fun n => 1 / (n + 1)) .perfect (fun _ => 0) = .ok (A, B) ∧ B * A = 1 := by
  obtain ⟨azi, zen, hd⟩ := cube_design
  obtain ⟨A, B, h1, h2, _⟩ := C24_perfect (J := 7) (N := 1) azi zen hd (by norm_num) (fun n => 1 / ((n : ℝ) + 1))
    (fun n _ => by positivity) (fun _ => 0)
  exact ⟨azi, zen, A, B, h1, h2⟩

/-! ### C25 -/

theorem sht_design {Q N t S : ℕ} {azi zen : Fin Q → ℝ} (hd : IsTDesign t azi zen) (h : 2 * N ≤ t)
    (c : Matrix (Fin ((N + 1) ^ 2)) (Fin S) ℝ) : sht (shMat N azi zen) none (shMat N azi zen * c) = c := by
  show ((4 * π / Q) • shMat N azi zen).transpose * (shMat N azi zen * c) = c
  rw [Matrix.transpose_smul, Matrix.smul_mul, ← Matrix.mul_assoc, design_gram hd h, Matrix.smul_mul, Matrix.one_mul, smul_smul]
  have hQ : (Q : ℝ) ≠ 0 := by have := hd.pos; positivity
  have hp := pi_ne_zero
  rw [show 4 * π / Q * (Q / (4 * π)) = 1 by field_simp, one_smul]

/-- C25: the coefficients returned by `sh_mult` expand to the pointwise product, in every direction. Surplus coefficients beyond
the inferred orders are ignored. -/
theorem C25_product (design : ℕ → Σ Q : ℕ, (Fin Q → ℝ) × (Fin Q → ℝ)) {K1 K2 N1 N2 : ℕ} (a : Fin K1 → ℝ) (b : Fin K2 → ℝ)
    (h1 : (N1 + 1) ^ 2 ≤ K1) (h1' : K1 < (N1 + 2) ^ 2) (h2 : (N2 + 1) ^ 2 ≤ K2) (h2' : K2 < (N2 + 2) ^ 2)
    (hpos : 1 ≤ N1 + N2) (hle : N1 + N2 ≤ 10)
    (hd : IsTDesign (2 * (N1 + N2)) (design (2 * (N1 + N2))).2.1 (design (2 * (N1 + N2))).2.2) :
    ∃ c : Fin ((N1 + N2 + 1) ^ 2) → ℝ, shMult design a b = .ok ⟨_, c⟩ ∧ ∀ azi zen : ℝ,
      ∑ q, c q * shVec (N1 + N2) azi zen q
        = (∑ q, a (Fin.castLE h1 q) * shVec N1 azi zen q) * ∑ q, b (Fin.castLE h2 q) * shVec N2 azi zen q := by
  have hK1 : shOrder K1 = N1 := (C11_order_iff K1 N1).1.2 ⟨h1, h1'⟩
  have hK2 : shOrder K2 = N2 := (C11_order_iff K2 N2).1.2 ⟨h2, h2'⟩
  obtain ⟨p, hp, hpe⟩ := expand_poly N1 fun q => a (Fin.castLE h1 q)
  obtain ⟨p', hp', hpe'⟩ := expand_poly N2 fun q => b (Fin.castLE h2 q)
  obtain ⟨c, hc⟩ := poly_expand (N1 + N2) (p * p') ((totalDegree_mul _ _).trans (by omega))
  refine ⟨c, ?_, fun azi zen => by rw [← hc, eval_mul, hpe, hpe']⟩
  have hcast : (2 * ((N1 + N2 : ℕ) : ℤ)).toNat = 2 * (N1 + N2) := by omega
  have hsum : shOrder K1 + shOrder K2 = ((N1 + N2 : ℕ) : ℤ) := by rw [hK1, hK2]; push_cast; rfl
  unfold shMult
  dsimp only
  rw [hsum, if_neg (by omega), if_neg (by omega), Int.toNat_natCast, hcast]
  rw [inverseSht_none (fun k (_ : Fin 1) => a k) _ _ N1 hK1 h1, inverseSht_none (fun k (_ : Fin 1) => b k) _ _ N2 hK2 h2]
  set azi := (design (2 * (N1 + N2))).2.1
  set zen := (design (2 * (N1 + N2))).2.2
  let cm : Matrix (Fin ((N1 + N2 + 1) ^ 2)) (Fin 1) ℝ := fun q _ => c q
  have hf : (fun q s => (shMat N1 azi zen * Matrix.submatrix (fun k (_ : Fin 1) => a k) (Fin.castLE h1) id) q s
      * (shMat N2 azi zen * Matrix.submatrix (fun k (_ : Fin 1) => b k) (Fin.castLE h2) id) q s) = shMat (N1 + N2) azi zen * cm := by
    ext q s
    have e : ∀ {N : ℕ} (v : Fin ((N + 1) ^ 2) → ℝ), ∑ k, shVec N (azi q) (zen q) k * v k = ∑ k, v k * shVec N (azi q) (zen q) k :=
      fun v => Finset.sum_congr rfl fun k _ => mul_comm _ _
    have g1 : (shMat N1 azi zen * Matrix.submatrix (fun k (_ : Fin 1) => a k) (Fin.castLE h1) id) q s = eval (sphPt (azi q) (zen q)) p :=
      (Matrix.mul_apply).trans ((e fun k => a (Fin.castLE h1 k)).trans (hpe _ _).symm)
    have g2 : (shMat N2 azi zen * Matrix.submatrix (fun k (_ : Fin 1) => b k) (Fin.castLE h2) id) q s = eval (sphPt (azi q) (zen q)) p' :=
      (Matrix.mul_apply).trans ((e fun k => b (Fin.castLE h2 k)).trans (hpe' _ _).symm)
    have g3 : (shMat (N1 + N2) azi zen * cm) q s = eval (sphPt (azi q) (zen q)) (p * p') :=
      (Matrix.mul_apply).trans ((e c).trans (hc _ _).symm)
    rw [g1, g2, g3, eval_mul]
  show Except.ok _ = Except.ok _
  have hs := sht_design hd (N := N1 + N2) (le_refl _) cm
  rw [← hf] at hs
  congr 2
  funext k
  exact congrFun (congrFun hs k) 0

/-- C25: outside `1 ≤ N1 + N2 ≤ 10` the call raises `ValueError`. -/
theorem C25_errors (design : ℕ → Σ Q : ℕ, (Fin Q → ℝ) × (Fin Q → ℝ)) {K1 K2 N1 N2 : ℕ} (a : Fin K1 → ℝ) (b : Fin K2 → ℝ)
    (h1 : (N1 + 1) ^ 2 ≤ K1) (h1' : K1 < (N1 + 2) ^ 2) (h2 : (N2 + 1) ^ 2 ≤ K2) (h2' : K2 < (N2 + 2) ^ 2)
    (h : N1 + N2 = 0 ∨ 10 < N1 + N2) : shMult design a b = .error .valueError := by
  have hK1 : shOrder K1 = N1 := (C11_order_iff K1 N1).1.2 ⟨h1, h1'⟩
  have hK2 : shOrder K2 = N2 := (C11_order_iff K2 N2).1.2 ⟨h2, h2'⟩
  unfold shMult
  simp only [hK1, hK2]
  rcases h with h | h
  · rw [if_neg (by omega), if_pos (by omega)]
  · rw [if_pos (by omega)]

example : ∃ (azi zen : Fin 8 → ℝ) (c : Fin ((1 + 0 + 1) ^ 2) → ℝ),
    shMult (fun _ => ⟨8, azi, zen⟩) ![1, 2, 3, 4] ![5] = .ok ⟨_, c⟩ := by
  obtain ⟨azi, zen, hd⟩ := cube_design
  have hd2 : IsTDesign (2 * (1 + 0)) azi zen := ⟨hd.pos, hd.zenith, fun p hp => hd.exact p (by omega)⟩
  obtain ⟨c, hc, _⟩ := C25_product (N1 := 1) (N2 := 0) (fun _ => ⟨8, azi, zen⟩) ![1, 2, 3, 4] ![5] (by norm_num) (by norm_num)
    (by norm_num) (by norm_num) (by norm_num) (by norm_num) hd2
  exact ⟨azi, zen, c, hc⟩

example : shMult (fun _ => ⟨0, fun _ => 0, fun _ => 0⟩) ![1] ![2] = .error .valueError :=
  C25_errors (N1 := 0) (N2 := 0) _ _ _ (by norm_num) (by norm_num) (by norm_num) (by norm_num) (.inl rfl)

/-! ### C26 -/

/-- C26: magnitude at most one for unit directions. -/
theorem C26_le_one {Q : ℕ} (p : Fin Q → Fin 3 → ℝ) (hp : ∀ q, ∑ c, p q c ^ 2 = 1) (g : Fin Q → ℝ) : (rE p g).2 ≤ 1 := by
  unfold rE
  by_cases hE : ∑ q, g q ^ 2 = 0
  · simp only [hE, if_pos]; norm_num
  · simp only [if_neg hE]
    rw [Real.sqrt_le_one]
    set E := ∑ q, g q ^ 2 with hEdef
    have hEpos : 0 < E := lt_of_le_of_ne (Finset.sum_nonneg fun q _ => sq_nonneg _) (Ne.symm hE)
    have hcs : ∀ c, (∑ q, g q ^ 2 * p q c) ^ 2 ≤ E * ∑ q, g q ^ 2 * p q c ^ 2 := by
      intro c
      have := Finset.sum_mul_sq_le_sq_mul_sq Finset.univ g (fun q => g q * p q c)
      refine (le_of_eq ?_).trans (this.trans (le_of_eq ?_))
      · congr 1; exact Finset.sum_congr rfl fun q _ => by ring
      · congr 1; exact Finset.sum_congr rfl fun q _ => by ring
    calc ∑ c, (1 / E * ∑ q, g q ^ 2 * p q c) ^ 2 = (1 / E) ^ 2 * ∑ c, (∑ q, g q ^ 2 * p q c) ^ 2 := by
          rw [Finset.mul_sum]; exact Finset.sum_congr rfl fun c _ => by ring
      _ ≤ (1 / E) ^ 2 * ∑ c, E * ∑ q, g q ^ 2 * p q c ^ 2 :=
          mul_le_mul_of_nonneg_left (Finset.sum_le_sum fun c _ => hcs c) (by positivity)
      _ = (1 / E) ^ 2 * (E * E) := by
          rw [← Finset.mul_sum, Finset.sum_comm]
          congr 2
          refine Finset.sum_congr rfl fun q _ => ?_
          rw [← Finset.mul_sum, hp, mul_one]
      _ = 1 := by field_simp

/-- C26: exactly one, and pointing at the loudspeaker, when a single one is active. -/
theorem C26_single {Q : ℕ} (p : Fin Q → Fin 3 → ℝ) (hp : ∀ q, ∑ c, p q c ^ 2 = 1) (q0 : Fin Q) (g : ℝ) (hg : g ≠ 0) :
    rE p (Pi.single q0 g) = (some (p q0), 1) := by
  have h1 : ∀ f : Fin Q → ℝ, ∑ q, (Pi.single q0 g : Fin Q → ℝ) q ^ 2 * f q = g ^ 2 * f q0 := by
    intro f
    rw [Finset.sum_eq_single q0]
    · rw [Pi.single_eq_same]
    · intro b _ hb; rw [Pi.single_eq_of_ne hb]; ring
    · intro h; exact absurd (Finset.mem_univ _) h
  have hE : ∑ q, (Pi.single q0 g : Fin Q → ℝ) q ^ 2 = g ^ 2 := by simpa using h1 (fun _ => 1)
  have hg2 : g ^ 2 ≠ 0 := pow_ne_zero 2 hg
  have hv : (fun c => 1 / g ^ 2 * ∑ q, (Pi.single q0 g : Fin Q → ℝ) q ^ 2 * p q c) = p q0 := by
    funext c
    rw [h1, ← mul_assoc, one_div, inv_mul_cancel₀ hg2, one_mul]
  unfold rE
  simp only [hE, if_neg hg2, hv, hp, Real.sqrt_one]

/-- C26: zero gains give the (undefined) vector and magnitude zero rather than an undefined magnitude. -/
theorem C26_zero {Q : ℕ} (p : Fin Q → Fin 3 → ℝ) : rE p (fun _ => 0) = (none, 0) := by
  unfold rE; simp

/-- C26: a common factor on the gains changes neither vector nor magnitude. -/
theorem C26_scale {Q : ℕ} (p : Fin Q → Fin 3 → ℝ) (g : Fin Q → ℝ) (s : ℝ) (hs : s ≠ 0) : rE p (fun q => s * g q) = rE p g := by
  have hs2 : s ^ 2 ≠ 0 := pow_ne_zero 2 hs
  have hE : ∑ q, (s * g q) ^ 2 = s ^ 2 * ∑ q, g q ^ 2 := by
    rw [Finset.mul_sum]; exact Finset.sum_congr rfl fun q _ => by ring
  have hv : ∀ c, ∑ q, (s * g q) ^ 2 * p q c = s ^ 2 * ∑ q, g q ^ 2 * p q c := by
    intro c; rw [Finset.mul_sum]; exact Finset.sum_congr rfl fun q _ => by ring
  unfold rE
  simp only [hE, hv]
  by_cases h : ∑ q, g q ^ 2 = 0
  · simp [h]
  · have h2 : ¬ s ^ 2 * ∑ q, g q ^ 2 = 0 := mul_ne_zero hs2 h
    simp only [if_neg h, if_neg h2]
    have e : ∀ c, 1 / (s ^ 2 * ∑ q, g q ^ 2) * (s ^ 2 * ∑ q, g q ^ 2 * p q c) = 1 / (∑ q, g q ^ 2) * ∑ q, g q ^ 2 * p q c := by
      intro c; field_simp
    simp only [e]

/-- C26: the value: the mean of the directions, each weighted with the square (energy) of its gain, and the length of that mean. -/
theorem C26_value {Q : ℕ} (p : Fin Q → Fin 3 → ℝ) (g : Fin Q → ℝ) (hg : g ≠ 0) :
    ∃ v, rE p g = (some v, √(∑ c, v c ^ 2)) ∧ (∀ c, ∑ q, g q ^ 2 * (p q c - v c) = 0) ∧ v ∈ convexHull ℝ (Set.range p) := by
  have hpos : 0 < ∑ q, g q ^ 2 := by
    obtain ⟨q, hq⟩ := Function.ne_iff.1 hg
    exact Finset.sum_pos' (fun _ _ => sq_nonneg _) ⟨q, Finset.mem_univ _, by have : g q ≠ 0 := hq; positivity⟩
  have hne := hpos.ne'
  refine ⟨fun c => 1 / (∑ q, g q ^ 2) * ∑ q, g q ^ 2 * p q c, ?_, ?_, ?_⟩
  · unfold rE
    simp only [if_neg hne]
  · intro c
    simp only [mul_sub, Finset.sum_sub_distrib]
    rw [← Finset.sum_mul]
    field_simp
    ring
  · refine mem_convexHull_of_exists_fintype (fun q => g q ^ 2 / ∑ q, g q ^ 2) p (fun q => by positivity) ?_ (fun q => ⟨q, rfl⟩) ?_
    · rw [← Finset.sum_div, div_self hne]
    · funext c
      rw [Finset.sum_apply, Finset.mul_sum]
      refine Finset.sum_congr rfl fun q _ => ?_
      simp only [Pi.smul_apply, smul_eq_mul]
      ring

/-- `C26_value`: two loudspeakers with gains 3 and 4 (energies 9 and 16). -/
example : ∃ v, rE ![![1, 0, 0], ![0, 1, 0]] ![3, 4] = (some v, √(∑ c, v c ^ 2)) ∧ v 0 = 9 / 25 ∧ v 1 = 16 / 25 := by
  obtain ⟨v, h, hv, -⟩ := C26_value ![![1, 0, 0], ![0, 1, 0]] ![3, 4] (fun h => by have := congrFun h 0; norm_num at this)
  have h0 := hv 0
  have h1 := hv 1
  simp [Fin.sum_univ_two] at h0 h1
  exact ⟨v, h, by linarith, by linarith⟩

/-- `C26_scale`: doubled gains with changed sign. -/
example : rE ![![1, 0, 0], ![0, 1, 0]] (fun q => -2 * (![3, 4] : Fin 2 → ℝ) q) = rE ![![1, 0, 0], ![0, 1, 0]] ![3, 4] := C26_scale _ _ (-2) (by norm_num)

/-- C26: mismatched sizes raise `AssertionError`; matching sizes never raise. -/
theorem C26_sizes (p : List (Fin 3 → ℝ)) (g : List ℝ) :
    (p.length ≠ g.length → rEChecked p g = .error .assertionError)
    ∧ (p.length = g.length → rEChecked p g = .ok (rE (fun q : Fin p.length => p[q]) (fun q => g.getD q 0))) :=
  ⟨fun h => if_neg h, fun h => if_pos h⟩

example : (rE ![![1, 0, 0], ![0, 1, 0]] ![3, 4]).2 ≤ 1 :=
  C26_le_one _ (by intro q; fin_cases q <;> simp [Fin.sum_univ_three]) _

example : rE ![![1, 0, 0], ![0, 1, 0]] (Pi.single 1 4) = (some ![0, 1, 0], 1) :=
  C26_single _ (by intro q; fin_cases q <;> simp [Fin.sum_univ_three]) 1 4 (by norm_num)

end Verif.Props
