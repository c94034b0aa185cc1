import Verif.Model.SphMisc
import Verif.Proofs.Eigh
import Verif.Props.SphDesigns
import Verif.Props.ShRotation
import Verif.Props.ShComplex
import Verif.Props.Coordinates

/-!
C113 (`project_on_sphere`), C114 (`check_cond_sht`).
-/

namespace Verif.Props
open Real Verif.Sph Verif.Utils

/-! ### C113 -/

/-- **C113** Every point but the origin is projected to the unit vector in its direction. -/
theorem C113_direction (x y z : ℝ) (h0 : (x, y, z) ≠ (0, 0, 0)) :
    projectOnSphere x y z = (x / √(x ^ 2 + y ^ 2 + z ^ 2), y / √(x ^ 2 + y ^ 2 + z ^ 2), z / √(x ^ 2 + y ^ 2 + z ^ 2)) := by
  have h := (C01_dir2cart_cart2dir x y z h0).1
  rw [← h]
  simp [projectOnSphere, cart2sph, sph2cart, dir2cart, cart2dir]

theorem unit_of_project (x y z : ℝ) (h0 : (x, y, z) ≠ (0, 0, 0)) (X Y Z : ℝ) (h : projectOnSphere x y z = (X, Y, Z)) :
    X ^ 2 + Y ^ 2 + Z ^ 2 = 1 ∧ ∃ r, 0 < r ∧ x = r * X ∧ y = r * Y ∧ z = r * Z := by
  have hr := radius_pos h0
  rw [C113_direction x y z h0] at h
  simp only [Prod.mk.injEq] at h
  obtain ⟨rfl, rfl, rfl⟩ := h
  have hs : √(x ^ 2 + y ^ 2 + z ^ 2) ^ 2 = x ^ 2 + y ^ 2 + z ^ 2 := Real.sq_sqrt (by positivity)
  refine ⟨?_, _, hr, ?_, ?_, ?_⟩
  · field_simp; linarith
  all_goals field_simp

/-- **C113** The projection lies on the unit sphere, is the point of the sphere closest to the given one, does not depend on the distance, and projecting
again changes nothing. -/
theorem C113_projection (x y z : ℝ) (h0 : (x, y, z) ≠ (0, 0, 0)) : ∃ X Y Z, projectOnSphere x y z = (X, Y, Z) ∧ X ^ 2 + Y ^ 2 + Z ^ 2 = 1 ∧
    projectOnSphere X Y Z = (X, Y, Z) ∧ (∀ c : ℝ, 0 < c → projectOnSphere (c * x) (c * y) (c * z) = (X, Y, Z)) ∧
    ∀ u v w : ℝ, u ^ 2 + v ^ 2 + w ^ 2 = 1 → (x - X) ^ 2 + (y - Y) ^ 2 + (z - Z) ^ 2 ≤ (x - u) ^ 2 + (y - v) ^ 2 + (z - w) ^ 2 := by
  obtain ⟨X, Y, Z, he⟩ : ∃ X Y Z, projectOnSphere x y z = (X, Y, Z) := ⟨_, _, _, rfl⟩
  obtain ⟨hu, r, hr, rfl, rfl, rfl⟩ := unit_of_project x y z h0 X Y Z he
  have hproj : ∀ c : ℝ, 0 < c → projectOnSphere (c * X) (c * Y) (c * Z) = (X, Y, Z) := by
    intro c hc
    have hn : (c * X, c * Y, c * Z) ≠ (0, 0, 0) := by
      intro h
      simp only [Prod.mk.injEq, mul_eq_zero, hc.ne', false_or] at h
      rw [h.1, h.2.1, h.2.2] at hu; norm_num at hu
    have e : √((c * X) ^ 2 + (c * Y) ^ 2 + (c * Z) ^ 2) = c := by
      rw [show (c * X) ^ 2 + (c * Y) ^ 2 + (c * Z) ^ 2 = c ^ 2 * (X ^ 2 + Y ^ 2 + Z ^ 2) by ring, hu, mul_one, Real.sqrt_sq hc.le]
    rw [C113_direction _ _ _ hn, e]
    simp [mul_div_cancel_left₀ _ hc.ne']
  refine ⟨X, Y, Z, he, hu, ?_, fun c hc => ?_, fun u v w huvw => ?_⟩
  · have := hproj 1 one_pos
    simpa using this
  · have := hproj (c * r) (by positivity)
    simpa only [mul_assoc] using this
  · have hdot : X * u + Y * v + Z * w ≤ 1 := by
      nlinarith [sq_nonneg (X - u), sq_nonneg (Y - v), sq_nonneg (Z - w)]
    nlinarith

example : projectOnSphere 3 0 4 = (3 / 5, 0 / 5, 4 / 5) := by
  rw [C113_direction 3 0 4 (by simp), show √((3 : ℝ) ^ 2 + 0 ^ 2 + 4 ^ 2) = 5 by rw [show (3 : ℝ) ^ 2 + 0 ^ 2 + 4 ^ 2 = 5 ^ 2 by norm_num]; exact Real.sqrt_sq (by norm_num)]

/-! ### C114 -/

/-- Specification of `np.linalg.cond` (2-norm): the ratio of the largest and the smallest factor by which the matrix stretches a vector, infinite (`none`) for a
singular matrix. -/
def IsCond {𝕜 : Type} [RCLike 𝕜] {n : ℕ} (A : Matrix (Fin n) (Fin n) 𝕜) : Option ℝ → Prop
  | none => ¬ IsUnit A
  | some c => ∃ hi lo : ℝ, 0 < lo ∧ 0 ≤ hi ∧ c = hi / lo ∧
      (∀ x : Fin n → 𝕜, lo ^ 2 * ∑ i, ‖x i‖ ^ 2 ≤ ∑ i, ‖A.mulVec x i‖ ^ 2 ∧ ∑ i, ‖A.mulVec x i‖ ^ 2 ≤ hi ^ 2 * ∑ i, ‖x i‖ ^ 2) ∧
      (∃ x : Fin n → 𝕜, x ≠ 0 ∧ ∑ i, ‖A.mulVec x i‖ ^ 2 = hi ^ 2 * ∑ i, ‖x i‖ ^ 2) ∧
      ∃ x : Fin n → 𝕜, x ≠ 0 ∧ ∑ i, ‖A.mulVec x i‖ ^ 2 = lo ^ 2 * ∑ i, ‖x i‖ ^ 2

theorem normSq_pos {𝕜 : Type} [RCLike 𝕜] {n : ℕ} {x : Fin n → 𝕜} (hx : x ≠ 0) : 0 < ∑ i, ‖x i‖ ^ 2 := by
  obtain ⟨i, hi⟩ := Function.ne_iff.1 hx
  exact Finset.sum_pos' (fun _ _ => by positivity) ⟨i, Finset.mem_univ _, by have : 0 < ‖x i‖ := norm_pos_iff.2 hi; positivity⟩

/-- The specification can be met. -/
theorem exists_cond {𝕜 : Type} [RCLike 𝕜] {n : ℕ} (hn : 0 < n) (A : Matrix (Fin n) (Fin n) 𝕜) : ∃ c, IsCond A c := by
  by_cases hA : IsUnit A
  swap
  · exact ⟨none, hA⟩
  have hne : Nonempty (Fin n) := ⟨⟨0, hn⟩⟩
  set S : Set (Fin n → 𝕜) := {x | ∑ i, ‖x i‖ ^ 2 = 1} with hS
  have hcont : Continuous fun x : Fin n → 𝕜 => ∑ i, ‖x i‖ ^ 2 := by fun_prop
  have hcompact : IsCompact S := by
    refine Metric.isCompact_of_isClosed_isBounded (isClosed_eq hcont continuous_const) ?_
    refine (Metric.isBounded_closedBall (x := (0 : Fin n → 𝕜)) (r := 1)).subset fun x hx => ?_
    rw [Metric.mem_closedBall, dist_zero_right, pi_norm_le_iff_of_nonneg zero_le_one]
    intro i
    have h1 : ‖x i‖ ^ 2 ≤ 1 := by
      rw [← (hx : ∑ i, ‖x i‖ ^ 2 = 1)]
      exact Finset.single_le_sum (f := fun i => ‖x i‖ ^ 2) (fun _ _ => by positivity) (Finset.mem_univ i)
    nlinarith [norm_nonneg (x i)]
  have hSne : S.Nonempty := by
    refine ⟨Pi.single ⟨0, hn⟩ 1, ?_⟩
    show ∑ i, ‖(Pi.single ⟨0, hn⟩ 1 : Fin n → 𝕜) i‖ ^ 2 = 1
    rw [Finset.sum_eq_single ⟨0, hn⟩]
    · simp
    · intro i _ hi; simp [Pi.single_eq_of_ne hi]
    · simp
  have hf : Continuous fun x : Fin n → 𝕜 => ∑ i, ‖A.mulVec x i‖ ^ 2 := by
    have : Continuous fun x : Fin n → 𝕜 => A.mulVec x := Continuous.matrix_mulVec continuous_const continuous_id
    exact hcont.comp this
  obtain ⟨a, haS, ha⟩ := hcompact.exists_isMaxOn hSne hf.continuousOn
  obtain ⟨b, hbS, hb⟩ := hcompact.exists_isMinOn hSne hf.continuousOn
  have nz : ∀ x ∈ S, x ≠ 0 := by
    rintro x hx rfl
    have : ∑ i : Fin n, ‖(0 : Fin n → 𝕜) i‖ ^ 2 = 1 := hx
    simp at this
  have hbpos : 0 < ∑ i, ‖A.mulVec b i‖ ^ 2 := by
    refine normSq_pos fun h0 => nz b hbS ?_
    exact (Matrix.mulVec_injective_iff_isUnit.2 hA) (by rw [h0, Matrix.mulVec_zero])
  have hapos : 0 ≤ ∑ i, ‖A.mulVec a i‖ ^ 2 := by positivity
  have hscale : ∀ x : Fin n → 𝕜, x ≠ 0 → ∃ t : ℝ, 0 < t ∧ t ^ 2 = ∑ i, ‖x i‖ ^ 2 ∧ ∃ y ∈ S, ∑ i, ‖A.mulVec x i‖ ^ 2 = t ^ 2 * ∑ i, ‖A.mulVec y i‖ ^ 2 := by
    intro x hx
    have hp := normSq_pos hx
    have ht : 0 < √(∑ i, ‖x i‖ ^ 2) := Real.sqrt_pos.2 hp
    have hsq := Real.sq_sqrt hp.le
    set t := √(∑ i, ‖x i‖ ^ 2) with htd
    have hsm : ∀ v : Fin n → 𝕜, ∑ i, ‖(((t⁻¹ : ℝ) : 𝕜) • v) i‖ ^ 2 = t⁻¹ ^ 2 * ∑ i, ‖v i‖ ^ 2 := by
      intro v
      rw [Finset.mul_sum]
      refine Finset.sum_congr rfl fun i _ => ?_
      rw [Pi.smul_apply, norm_smul, mul_pow, RCLike.norm_ofReal, sq_abs]
    refine ⟨t, ht, hsq, ((t⁻¹ : ℝ) : 𝕜) • x, ?_, ?_⟩
    · show ∑ i, ‖(((t⁻¹ : ℝ) : 𝕜) • x) i‖ ^ 2 = 1
      rw [hsm, ← hsq]
      field_simp
    · rw [Matrix.mulVec_smul, hsm]
      field_simp
  refine ⟨some (√(∑ i, ‖A.mulVec a i‖ ^ 2) / √(∑ i, ‖A.mulVec b i‖ ^ 2)), _, _, Real.sqrt_pos.2 hbpos, Real.sqrt_nonneg _, rfl, fun x => ?_,
    ⟨a, nz a haS, ?_⟩, ⟨b, nz b hbS, ?_⟩⟩
  · rw [Real.sq_sqrt hbpos.le, Real.sq_sqrt hapos]
    by_cases hx : x = 0
    · subst hx; simp
    obtain ⟨t, ht, hts, y, hy, he⟩ := hscale x hx
    rw [← hts, he]
    have h1 : ∑ i, ‖A.mulVec y i‖ ^ 2 ≤ ∑ i, ‖A.mulVec a i‖ ^ 2 := ha hy
    have h2 : ∑ i, ‖A.mulVec b i‖ ^ 2 ≤ ∑ i, ‖A.mulVec y i‖ ^ 2 := hb hy
    constructor
    · rw [mul_comm]; exact mul_le_mul_of_nonneg_left h2 (by positivity)
    · rw [mul_comm _ (t ^ 2)]; exact mul_le_mul_of_nonneg_left h1 (by positivity)
  · rw [Real.sq_sqrt hapos, (haS : ∑ i, ‖a i‖ ^ 2 = 1), mul_one]
  · rw [Real.sq_sqrt hbpos.le, (hbS : ∑ i, ‖b i‖ ^ 2 = 1), mul_one]

theorem isCond_ge_one {𝕜 : Type} [RCLike 𝕜] {n : ℕ} (A : Matrix (Fin n) (Fin n) 𝕜) (c : ℝ) (h : IsCond A (some c)) : 1 ≤ c := by
  obtain ⟨hi, lo, hlo, hhi, rfl, hb, ⟨x, hx, hxe⟩, _⟩ := h
  have h1 := (hb x).1
  rw [hxe] at h1
  have h2 := le_of_mul_le_mul_right h1 (normSq_pos hx)
  rw [le_div_iff₀ hlo, one_mul]
  nlinarith [abs_le_of_sq_le_sq h2 hhi, abs_of_pos hlo]

theorem isCond_scalar {𝕜 : Type} [RCLike 𝕜] {n : ℕ} (A : Matrix (Fin n) (Fin n) 𝕜) (g : 𝕜) (hg : g ≠ 0) (hA : A = g • 1) (c : Option ℝ)
    (h : IsCond A c) : c = some 1 := by
  have hm : ∀ x : Fin n → 𝕜, ∑ i, ‖A.mulVec x i‖ ^ 2 = ‖g‖ ^ 2 * ∑ i, ‖x i‖ ^ 2 := by
    intro x
    rw [hA, Matrix.smul_mulVec, Matrix.one_mulVec, Finset.mul_sum]
    exact Finset.sum_congr rfl fun i _ => by rw [Pi.smul_apply, norm_smul]; ring
  have hg0 : 0 < ‖g‖ := norm_pos_iff.2 hg
  cases c with
  | none =>
    refine absurd ?_ h
    rw [hA]
    exact (isUnit_one (M := Matrix (Fin n) (Fin n) 𝕜)).smul (Units.mk0 g hg)
  | some c =>
    obtain ⟨hi, lo, hlo, hhi, rfl, hb, ⟨x, hx, hxe⟩, ⟨y, hy, hye⟩⟩ := h
    rw [hm] at hxe hye
    have e1 := mul_right_cancel₀ (normSq_pos hx).ne' hxe
    have e2 := mul_right_cancel₀ (normSq_pos hy).ne' hye
    have h1 : ‖g‖ = hi := by rw [← Real.sqrt_sq hg0.le, e1, Real.sqrt_sq hhi]
    have h2 : ‖g‖ = lo := by rw [← Real.sqrt_sq hg0.le, e2, Real.sqrt_sq hlo.le]
    rw [← h1, ← h2, div_self hg0.ne']

theorem not_isUnit_gram {Q n : ℕ} {𝕜 : Type} [RCLike 𝕜] (B : Matrix (Fin n) (Fin Q) 𝕜) (Y : Matrix (Fin Q) (Fin n) 𝕜) (h : Q < n) : ¬ IsUnit (B * Y) := by
  intro hu
  have h1 := Matrix.rank_of_isUnit _ hu
  have h2 := (Matrix.rank_mul_le_right B Y).trans (Matrix.rank_le_card_height Y)
  simp at h1 h2
  omega

theorem isCond_singular {𝕜 : Type} [RCLike 𝕜] {n : ℕ} (A : Matrix (Fin n) (Fin n) 𝕜) (hA : ¬ IsUnit A) (c : Option ℝ) (h : IsCond A c) : c = none := by
  cases c with
  | none => rfl
  | some c =>
    exfalso
    obtain ⟨hi, lo, hlo, _, _, hb, _, _⟩ := h
    apply hA
    rw [← Matrix.mulVec_injective_iff_isUnit]
    intro x y hxy
    by_contra hne
    have h1 := (hb (x - y)).1
    rw [Matrix.mulVec_sub, sub_eq_zero.2 hxy] at h1
    have := normSq_pos (sub_ne_zero.2 hne)
    simp only [Pi.zero_apply, norm_zero, ne_eq, OfNat.ofNat_ne_zero, not_false_eq_true, zero_pow, Finset.sum_const_zero] at h1
    have : 0 < lo ^ 2 * ∑ i, ‖(x - y) i‖ ^ 2 := by positivity
    linarith

/-- **C114** On a design of strength `2N` the condition number is one for either type of harmonics, so nothing is reported with a limit of one or more; with the
default limit something is reported only at order zero. -/
theorem C114_design {Q N t : ℕ} {azi zen : Fin Q → ℝ} (hd : IsTDesign t azi zen) (ht : 2 * N ≤ t) (cond : {n : ℕ} → Matrix (Fin n) (Fin n) ℝ → Option ℝ)
    (hcond : ∀ {n : ℕ}, 0 < n → ∀ A : Matrix (Fin n) (Fin n) ℝ, IsCond A (cond A)) (condC : {n : ℕ} → Matrix (Fin n) (Fin n) ℂ → Option ℝ)
    (hcondC : ∀ {n : ℕ}, 0 < n → ∀ A : Matrix (Fin n) (Fin n) ℂ, IsCond A (condC A)) :
    (∀ lim : ℝ, checkCondSht cond N azi zen (some lim) = (some 1, decide (lim < 1)) ∧ checkCondShtC condC N azi zen (some lim) = (some 1, decide (lim < 1))) ∧
    checkCondSht cond N azi zen none = (some 1, decide (N = 0)) ∧ checkCondShtC condC N azi zen none = (some 1, decide (N = 0)) := by
  have hQ : (0 : ℝ) < Q := by exact_mod_cast hd.pos
  have hpi := pi_pos
  have h1 : cond ((shMat N azi zen).transpose * shMat N azi zen) = some 1 :=
    isCond_scalar _ ((Q : ℝ) / (4 * π)) (by positivity) (design_gram hd ht) _ (hcond (sq_pos' N) _)
  have h2 : condC (((shMatC N azi zen).map (starRingEnd ℂ)).transpose * shMatC N azi zen) = some 1 := by
    refine isCond_scalar _ (((Q : ℝ) / (4 * π) : ℝ) : ℂ) (by exact_mod_cast (by positivity : (Q : ℝ) / (4 * π) ≠ 0)) ?_ _ (hcondC (sq_pos' N) _)
    have hg := gramC azi zen (fun _ : Fin Q => 4 * π / Q) (design_wgram hd ht)
    have e : Matrix.diagonal (fun _ : Fin Q => (((4 * π / Q : ℝ)) : ℂ)) * shMatC N azi zen = (((4 * π / Q : ℝ)) : ℂ) • shMatC N azi zen := by
      ext i j; rw [Matrix.diagonal_mul, Matrix.smul_apply, smul_eq_mul]
    rw [e, Matrix.mul_smul] at hg
    rw [← hg, smul_smul, ← Complex.ofReal_mul]
    rw [show (Q : ℝ) / (4 * π) * (4 * π / Q) = 1 by field_simp, Complex.ofReal_one, one_smul]
  have hl : decide ((N : ℝ) + N / 2 < 1) = decide (N = 0) := by
    rw [decide_eq_decide]
    constructor
    · intro h
      by_contra hN
      have : (1 : ℝ) ≤ N := by exact_mod_cast Nat.one_le_iff_ne_zero.2 hN
      linarith
    · rintro rfl; norm_num
  refine ⟨fun lim => ⟨?_, ?_⟩, ?_, ?_⟩
  · simp only [checkCondSht, h1]; rfl
  · simp only [checkCondShtC, h2]; rfl
  · simp only [checkCondSht, h1]; rw [← hl]; rfl
  · simp only [checkCondShtC, h2]; rw [← hl]; rfl

/-- **C114** The condition number is never below one; with fewer points than coefficients it is infinite and always reported. -/
theorem C114_range {Q N : ℕ} (azi zen : Fin Q → ℝ) (lim : Option ℝ) (cond : {n : ℕ} → Matrix (Fin n) (Fin n) ℝ → Option ℝ)
    (hcond : ∀ {n : ℕ}, 0 < n → ∀ A : Matrix (Fin n) (Fin n) ℝ, IsCond A (cond A)) (condC : {n : ℕ} → Matrix (Fin n) (Fin n) ℂ → Option ℝ)
    (hcondC : ∀ {n : ℕ}, 0 < n → ∀ A : Matrix (Fin n) (Fin n) ℂ, IsCond A (condC A)) :
    (∀ c, (checkCondSht cond N azi zen lim).1 = some c → 1 ≤ c) ∧ (∀ c, (checkCondShtC condC N azi zen lim).1 = some c → 1 ≤ c) ∧
    (Q < (N + 1) ^ 2 → checkCondSht cond N azi zen lim = (none, true) ∧ checkCondShtC condC N azi zen lim = (none, true)) := by
  refine ⟨fun c hc => ?_, fun c hc => ?_, fun h => ⟨?_, ?_⟩⟩
  · have := hcond (sq_pos' N) ((shMat N azi zen).transpose * shMat N azi zen)
    rw [show cond ((shMat N azi zen).transpose * shMat N azi zen) = some c from hc] at this
    exact isCond_ge_one _ c this
  · have := hcondC (sq_pos' N) (((shMatC N azi zen).map (starRingEnd ℂ)).transpose * shMatC N azi zen)
    rw [show condC (((shMatC N azi zen).map (starRingEnd ℂ)).transpose * shMatC N azi zen) = some c from hc] at this
    exact isCond_ge_one _ c this
  · have := isCond_singular _ (not_isUnit_gram (shMat N azi zen).transpose (shMat N azi zen) h) _ (hcond (sq_pos' N) _)
    simp only [checkCondSht, this]; rfl
  · have := isCond_singular _ (not_isUnit_gram ((shMatC N azi zen).map (starRingEnd ℂ)).transpose (shMatC N azi zen) h) _ (hcondC (sq_pos' N) _)
    simp only [checkCondShtC, this]; rfl

/-- The specification determines the value. -/
theorem isCond_unique {𝕜 : Type} [RCLike 𝕜] {n : ℕ} (A : Matrix (Fin n) (Fin n) 𝕜) (c c' : Option ℝ) (h : IsCond A c) (h' : IsCond A c') : c = c' := by
  cases c with
  | none => exact (isCond_singular A h c' h').symm
  | some c =>
    cases c' with
    | none => exact isCond_singular A h' _ h
    | some c' =>
      obtain ⟨hi, lo, hlo, hhi, rfl, hb, ⟨x, hx, hxe⟩, ⟨y, hy, hye⟩⟩ := h
      obtain ⟨hi', lo', hlo', hhi', rfl, hb', ⟨x', hx', hxe'⟩, ⟨y', hy', hye'⟩⟩ := h'
      have a1 := (hb' x).2; rw [hxe] at a1
      have a2 := (hb x').2; rw [hxe'] at a2
      have b1 := (hb' y).1; rw [hye] at b1
      have b2 := (hb y').1; rw [hye'] at b2
      have a1 := abs_le_of_sq_le_sq (le_of_mul_le_mul_right a1 (normSq_pos hx)) hhi'
      have a2 := abs_le_of_sq_le_sq (le_of_mul_le_mul_right a2 (normSq_pos hx')) hhi
      have b1 := abs_le_of_sq_le_sq (le_of_mul_le_mul_right b1 (normSq_pos hy)) hlo.le
      have b2 := abs_le_of_sq_le_sq (le_of_mul_le_mul_right b2 (normSq_pos hy')) hlo'.le
      rw [abs_of_nonneg hhi] at a1
      rw [abs_of_nonneg hhi'] at a2
      rw [abs_of_pos hlo'] at b1
      rw [abs_of_pos hlo] at b2
      rw [le_antisymm a1 a2, le_antisymm b2 b1]

theorem isCond_conj {n : ℕ} (A R : Matrix (Fin n) (Fin n) ℝ) (hR : R.transpose * R = 1) (c : Option ℝ) (h : IsCond A c) : IsCond (R * A * R.transpose) c := by
  have hR' : R * R.transpose = 1 := mul_eq_one_comm.1 hR
  have iso : ∀ (M : Matrix (Fin n) (Fin n) ℝ), M.transpose * M = 1 → ∀ x : Fin n → ℝ, ∑ i, ‖M.mulVec x i‖ ^ 2 = ∑ i, ‖x i‖ ^ 2 := by
    intro M hM x
    have e : ∀ v : Fin n → ℝ, ∑ i, ‖v i‖ ^ 2 = v ⬝ᵥ v := fun v => Finset.sum_congr rfl fun i _ => by rw [Real.norm_eq_abs, sq_abs, sq]
    rw [e, e, Matrix.dotProduct_mulVec, ← Matrix.mulVec_transpose, Matrix.mulVec_mulVec, hM, Matrix.one_mulVec]
  have hcomp : ∀ x, ∑ i, ‖(R * A * R.transpose).mulVec x i‖ ^ 2 = ∑ i, ‖A.mulVec (R.transpose.mulVec x) i‖ ^ 2 := by
    intro x
    rw [← iso R hR (A.mulVec (R.transpose.mulVec x)), Matrix.mulVec_mulVec, Matrix.mulVec_mulVec, Matrix.mul_assoc]
  have hT : ∀ x, ∑ i, ‖R.transpose.mulVec x i‖ ^ 2 = ∑ i, ‖x i‖ ^ 2 := iso R.transpose (by rw [Matrix.transpose_transpose, hR'])
  cases c with
  | none =>
    intro hu
    apply h
    have hRu : IsUnit R := ⟨⟨R, R.transpose, hR', hR⟩, rfl⟩
    have hRtu : IsUnit R.transpose := ⟨⟨R.transpose, R, hR, hR'⟩, rfl⟩
    have e : A = R.transpose * (R * A * R.transpose) * R := by
      calc A = (R.transpose * R) * A * (R.transpose * R) := by rw [hR]; simp
        _ = _ := by simp only [Matrix.mul_assoc]
    rw [e]
    exact (hRtu.mul hu).mul hRu
  | some c =>
    obtain ⟨hi, lo, hlo, hhi, he, hb, ⟨x, hx, hxe⟩, ⟨y, hy, hye⟩⟩ := h
    have inv : ∀ x : Fin n → ℝ, R.transpose.mulVec (R.mulVec x) = x := fun x => by rw [Matrix.mulVec_mulVec, hR, Matrix.one_mulVec]
    have nz : ∀ x : Fin n → ℝ, x ≠ 0 → R.mulVec x ≠ 0 := fun x hx h0 => hx (by rw [← inv x, h0, Matrix.mulVec_zero])
    refine ⟨hi, lo, hlo, hhi, he, fun v => ?_, ⟨R.mulVec x, nz x hx, ?_⟩, ⟨R.mulVec y, nz y hy, ?_⟩⟩
    · have := hb (R.transpose.mulVec v)
      rw [hT v] at this
      rw [hcomp]
      exact this
    · rw [hcomp, inv, iso R hR]; exact hxe
    · rw [hcomp, inv, iso R hR]; exact hye

/-- **C114** Rotating the grid changes neither the condition number nor the report. -/
theorem C114_rotated {Q N : ℕ} (hN : 1 ≤ N) (azi zen azi' zen' : Fin Q → ℝ) (hz : ∀ q, zen q ∈ Set.Icc 0 π) (hz' : ∀ q, zen' q ∈ Set.Icc 0 π)
    (yaw pitch roll : ℝ) (hrot : ∀ q, dirVec (azi' q) (zen' q) = (rotationEuler yaw pitch roll).mulVec (dirVec (azi q) (zen q))) (lim : Option ℝ)
    (cond : {n : ℕ} → Matrix (Fin n) (Fin n) ℝ → Option ℝ) (hcond : ∀ {n : ℕ}, 0 < n → ∀ A : Matrix (Fin n) (Fin n) ℝ, IsCond A (cond A)) :
    checkCondSht cond N azi' zen' lim = checkCondSht cond N azi zen lim := by
  obtain ⟨R, hR, hr⟩ := C19_rotation N hN yaw pitch roll
  obtain ⟨R', hR', _, ho⟩ := C20_orthogonal N hN yaw pitch roll
  rw [hR] at hR'
  have hRR : R = R' := eq_of_heq (NpMat.mk.inj (Except.ok.inj hR')).2.2
  subst hRR
  have hY : shMat N azi' zen' = shMat N azi zen * R.transpose := by
    ext q i
    have := congrFun (hr (azi q) (zen q) (azi' q) (zen' q) (hz q) (hz' q) (hrot q)) i
    show shVec N (azi' q) (zen' q) i = _
    rw [← this, Matrix.mul_apply]
    show ∑ j, R i j * shVec N (azi q) (zen q) j = _
    exact Finset.sum_congr rfl fun j _ => mul_comm (R i j) (shVec N (azi q) (zen q) j)
  have hG : (shMat N azi' zen').transpose * shMat N azi' zen' = R * ((shMat N azi zen).transpose * shMat N azi zen) * R.transpose := by
    rw [hY, Matrix.transpose_mul, Matrix.transpose_transpose]; simp only [Matrix.mul_assoc]
  have hc : cond ((shMat N azi' zen').transpose * shMat N azi' zen') = cond ((shMat N azi zen).transpose * shMat N azi zen) := by
    refine isCond_unique _ _ _ (hcond (sq_pos' N) _) ?_
    rw [hG]
    exact isCond_conj _ R ho _ (hcond (sq_pos' N) _)
  simp only [checkCondSht, hc]

/-- Bounds of the quadratic form of a symmetric positive semidefinite matrix from bounds of its stretching factors. -/
theorem quad_bounds {n : ℕ} (G : Matrix (Fin n) (Fin n) ℝ) (hG : G.PosSemidef) (lo hi : ℝ) (hhi : 0 ≤ hi)
    (hb : ∀ x : Fin n → ℝ, lo ^ 2 * (x ⬝ᵥ x) ≤ G.mulVec x ⬝ᵥ G.mulVec x ∧ G.mulVec x ⬝ᵥ G.mulVec x ≤ hi ^ 2 * (x ⬝ᵥ x)) (x : Fin n → ℝ) :
    lo * (x ⬝ᵥ x) ≤ x ⬝ᵥ G.mulVec x ∧ x ⬝ᵥ G.mulVec x ≤ hi * (x ⬝ᵥ x) := by
  have hs : G.transpose = G := by rw [← Matrix.conjTranspose_eq_transpose_of_trivial]; exact hG.isHermitian
  obtain ⟨w, v, he⟩ := Verif.Parsa.exists_eigh G hs
  have hv' := he.orth'
  have hw := he.nonneg hG
  have hcol : ∀ i, G.mulVec (v.mulVec (Pi.single i 1)) = w i • v.mulVec (Pi.single i 1) := by
    intro i
    rw [Matrix.mulVec_mulVec]
    have : G * v = v * Matrix.diagonal w := by
      conv_lhs => rw [he.decomp, Matrix.mul_assoc, he.orth, Matrix.mul_one]
    rw [this, ← Matrix.mulVec_mulVec, Matrix.diagonal_mulVec_single, mul_one, ← Matrix.mulVec_smul]
    congr 1
    rw [← Pi.single_smul, smul_eq_mul, mul_one]
  have iso : ∀ y : Fin n → ℝ, v.mulVec y ⬝ᵥ v.mulVec y = y ⬝ᵥ y := by
    intro y
    rw [Matrix.dotProduct_mulVec, ← Matrix.mulVec_transpose, Matrix.mulVec_mulVec, he.orth, Matrix.one_mulVec]
  have hwb : ∀ i, lo ≤ w i ∧ w i ≤ hi := by
    intro i
    have := hb (v.mulVec (Pi.single i 1))
    rw [hcol, smul_dotProduct, dotProduct_smul, iso] at this
    simp only [dotProduct_single, Pi.single_eq_same, mul_one, smul_eq_mul] at this
    constructor
    · nlinarith [hw i, abs_le_of_sq_le_sq (show lo ^ 2 ≤ w i ^ 2 by nlinarith) (hw i), le_abs_self lo]
    · nlinarith [hw i, abs_le_of_sq_le_sq (show w i ^ 2 ≤ hi ^ 2 by nlinarith) hhi, le_abs_self (w i)]
  set y := v.transpose.mulVec x with hy
  have hxy : x = v.mulVec y := by rw [hy, Matrix.mulVec_mulVec, hv', Matrix.one_mulVec]
  have hq : x ⬝ᵥ G.mulVec x = ∑ i, w i * y i ^ 2 := by
    conv_lhs => rw [he.decomp]
    rw [← Matrix.mulVec_mulVec, ← Matrix.mulVec_mulVec, ← hy, Matrix.dotProduct_mulVec, ← Matrix.mulVec_transpose, ← hy]
    exact Finset.sum_congr rfl fun i _ => by rw [Matrix.mulVec_diagonal]; ring
  have hn : x ⬝ᵥ x = ∑ i, y i ^ 2 := by
    rw [hxy, iso]
    exact Finset.sum_congr rfl fun i _ => by ring
  rw [hq, hn, Finset.mul_sum, Finset.mul_sum]
  exact ⟨Finset.sum_le_sum fun i _ => mul_le_mul_of_nonneg_right (hwb i).1 (sq_nonneg _),
    Finset.sum_le_sum fun i _ => mul_le_mul_of_nonneg_right (hwb i).2 (sq_nonneg _)⟩

/-- **C114** What the number means: when a band limited function is sampled on the grid and the samples are disturbed, the squared relative error of the
coefficients from `sht_lstsq` is at most `check_cond_sht` times the squared relative error of the samples. -/
theorem C114_error_bound {Q N : ℕ} (azi zen : Fin Q → ℝ) (lim : Option ℝ) (cond : {n : ℕ} → Matrix (Fin n) (Fin n) ℝ → Option ℝ)
    (hcond : ∀ {n : ℕ}, 0 < n → ∀ A : Matrix (Fin n) (Fin n) ℝ, IsCond A (cond A)) (c : ℝ) (hc : (checkCondSht cond N azi zen lim).1 = some c)
    (lstsq : (K : ℕ) → Matrix (Fin Q) (Fin K) ℝ → Matrix (Fin Q) (Fin 1) ℝ → Matrix (Fin K) (Fin 1) ℝ) (hl : ∀ K A b, IsLstsq A b (lstsq K A b))
    (F : Matrix (Fin ((N + 1) ^ 2)) (Fin 1) ℝ) (e : Matrix (Fin Q) (Fin 1) ℝ) :
    (∑ k, (shtLstsq lstsq (shMat N azi zen * F + e) N azi zen k 0 - F k 0) ^ 2) * (∑ q, (shMat N azi zen * F) q 0 ^ 2)
      ≤ c * (∑ q, e q 0 ^ 2) * ∑ k, F k 0 ^ 2 := by
  set Y := shMat N azi zen with hY
  set G := Y.transpose * Y with hG
  have hspec := hcond (sq_pos' N) G
  rw [show cond G = some c from hc] at hspec
  obtain ⟨hi, lo, hlo, hhi, rfl, hb, _, _⟩ := hspec
  have hps : G.PosSemidef := by
    have := Matrix.posSemidef_conjTranspose_mul_self Y
    rwa [Matrix.conjTranspose_eq_transpose_of_trivial] at this
  have nrm : ∀ {n : ℕ} (v : Fin n → ℝ), ∑ i, ‖v i‖ ^ 2 = v ⬝ᵥ v := fun v => Finset.sum_congr rfl fun i _ => by rw [Real.norm_eq_abs, sq_abs, sq]
  have hq := quad_bounds G hps lo hi hhi (fun x => by
    have := hb x
    rw [nrm, nrm] at this
    exact this)
  have hGq : ∀ x : Fin ((N + 1) ^ 2) → ℝ, x ⬝ᵥ G.mulVec x = Y.mulVec x ⬝ᵥ Y.mulVec x := by
    intro x
    rw [hG, ← Matrix.mulVec_mulVec, Matrix.dotProduct_mulVec x, ← Matrix.mulVec_transpose, Matrix.transpose_transpose]
  set X := shtLstsq lstsq (Y * F + e) N azi zen with hX
  have hnormal : Y.transpose * (Y * X - (Y * F + e)) = 0 := lstsq_normal (hl _ Y (Y * F + e))
  set d : Fin ((N + 1) ^ 2) → ℝ := fun k => X k 0 - F k 0 with hd
  set ε : Fin Q → ℝ := fun q => e q 0 with hε
  set f : Fin ((N + 1) ^ 2) → ℝ := fun k => F k 0 with hf
  have hYd : ∀ q, Y.mulVec d q = (Y * X - (Y * F)) q 0 := by
    intro q
    rw [Matrix.sub_apply, Matrix.mul_apply, Matrix.mul_apply, ← Finset.sum_sub_distrib]
    show ∑ k, Y q k * (X k 0 - F k 0) = _
    exact Finset.sum_congr rfl fun k _ => mul_sub _ _ _
  have hort : Y.transpose.mulVec (Y.mulVec d - ε) = 0 := by
    funext k
    have := congrFun (congrFun hnormal k) 0
    rw [Matrix.mul_apply] at this
    show ∑ q, Y.transpose k q * (Y.mulVec d q - ε q) = 0
    refine Eq.trans ?_ this
    refine Finset.sum_congr rfl fun q _ => ?_
    rw [hYd, Matrix.sub_apply, Matrix.sub_apply, Matrix.add_apply, sub_sub]
  have hYde : Y.mulVec d ⬝ᵥ Y.mulVec d = Y.mulVec d ⬝ᵥ ε := by
    have : d ⬝ᵥ Y.transpose.mulVec (Y.mulVec d - ε) = 0 := by rw [hort, dotProduct_zero]
    rw [Matrix.dotProduct_mulVec, ← Matrix.mulVec_transpose, Matrix.transpose_transpose, dotProduct_sub] at this
    linarith
  have hle : Y.mulVec d ⬝ᵥ Y.mulVec d ≤ ε ⬝ᵥ ε := by
    have h0 : 0 ≤ (Y.mulVec d - ε) ⬝ᵥ (Y.mulVec d - ε) := by
      rw [← nrm]; positivity
    rw [sub_dotProduct, dotProduct_sub, dotProduct_sub, dotProduct_comm ε] at h0
    linarith
  have h1 : lo * (d ⬝ᵥ d) ≤ ε ⬝ᵥ ε := by
    have := (hq d).1
    rw [hGq] at this
    linarith
  have h2 : Y.mulVec f ⬝ᵥ Y.mulVec f ≤ hi * (f ⬝ᵥ f) := by
    have := (hq f).2
    rwa [hGq] at this
  have s1 : ∑ k, (X k 0 - F k 0) ^ 2 = d ⬝ᵥ d := Finset.sum_congr rfl fun k _ => sq _
  have s2 : ∑ q, (Y * F) q 0 ^ 2 = Y.mulVec f ⬝ᵥ Y.mulVec f := Finset.sum_congr rfl fun k _ => sq _
  have s3 : ∑ q, e q 0 ^ 2 = ε ⬝ᵥ ε := Finset.sum_congr rfl fun k _ => sq _
  have s4 : ∑ k, F k 0 ^ 2 = f ⬝ᵥ f := Finset.sum_congr rfl fun k _ => sq _
  rw [s1, s2, s3, s4]
  have p1 : 0 ≤ d ⬝ᵥ d := by rw [← nrm]; positivity
  have p2 : 0 ≤ f ⬝ᵥ f := by rw [← nrm]; positivity
  have p3 : 0 ≤ ε ⬝ᵥ ε := by rw [← nrm]; positivity
  have : d ⬝ᵥ d ≤ ε ⬝ᵥ ε / lo := by rw [le_div_iff₀ hlo]; linarith
  calc d ⬝ᵥ d * (Y.mulVec f ⬝ᵥ Y.mulVec f) ≤ (ε ⬝ᵥ ε / lo) * (hi * (f ⬝ᵥ f)) := mul_le_mul this h2 (by rw [← nrm]; positivity) (by positivity)
    _ = hi / lo * (ε ⬝ᵥ ε) * (f ⬝ᵥ f) := by field_simp

/-- A function meeting the specification of `np.linalg.cond` exists, and the cube is a design to which the theorems above apply at order one. -/
example : ∃ cond : {n : ℕ} → Matrix (Fin n) (Fin n) ℝ → Option ℝ, (∀ {n : ℕ}, 0 < n → ∀ A : Matrix (Fin n) (Fin n) ℝ, IsCond A (cond A)) ∧
    ∃ azi zen : Fin 8 → ℝ, checkCondSht cond 1 azi zen none = (some 1, false) := by
  classical
  obtain ⟨azi, zen, hd⟩ := cube_design
  let cond : (𝕜 : Type) → [RCLike 𝕜] → {n : ℕ} → Matrix (Fin n) (Fin n) 𝕜 → Option ℝ := fun 𝕜 _ n A => if h : 0 < n then (exists_cond h A).choose else none
  have hcond : ∀ (𝕜 : Type) [RCLike 𝕜] {n : ℕ}, 0 < n → ∀ A : Matrix (Fin n) (Fin n) 𝕜, IsCond A (cond 𝕜 A) := by
    intro 𝕜 _ n h A
    simp only [cond, dif_pos h]
    exact (exists_cond h A).choose_spec
  refine ⟨cond ℝ, hcond ℝ, azi, zen, ?_⟩
  exact (C114_design hd (by norm_num) (cond ℝ) (hcond ℝ) (cond ℂ) (hcond ℂ)).2.1

/-- `C114_range`, `C114_rotated`: a rotated grid of three directions has the same condition number, at least one; at order one it is infinite. -/
example : ∃ cond : {n : ℕ} → Matrix (Fin n) (Fin n) ℝ → Option ℝ, (∀ {n : ℕ}, 0 < n → ∀ A : Matrix (Fin n) (Fin n) ℝ, IsCond A (cond A)) ∧
    checkCondSht cond 1 ![0, 1, 2] ![π / 2, π / 2, 0] none = (none, true) ∧
    checkCondSht cond 1 (fun q => (vec2dir ((rotationEuler 1 2 3).mulVec (dirVec (![0, 1, 2] q) (![π / 2, π / 2, 0] q)))).1)
      (fun q => (vec2dir ((rotationEuler 1 2 3).mulVec (dirVec (![0, 1, 2] q) (![π / 2, π / 2, 0] q)))).2) none = (none, true) := by
  classical
  let cond : (𝕜 : Type) → [RCLike 𝕜] → {n : ℕ} → Matrix (Fin n) (Fin n) 𝕜 → Option ℝ := fun 𝕜 _ n A => if h : 0 < n then (exists_cond h A).choose else none
  have hcond : ∀ (𝕜 : Type) [RCLike 𝕜] {n : ℕ}, 0 < n → ∀ A : Matrix (Fin n) (Fin n) 𝕜, IsCond A (cond 𝕜 A) := by
    intro 𝕜 _ n h A
    simp only [cond, dif_pos h]
    exact (exists_cond h A).choose_spec
  have h1 := ((C114_range (Q := 3) (N := 1) ![0, 1, 2] ![π / 2, π / 2, 0] none (cond ℝ) (hcond ℝ) (cond ℂ) (hcond ℂ)).2.2 (by norm_num)).1
  have hv : ∀ q : Fin 3, _ := fun q => dirVec_vec2dir ((rotationEuler 1 2 3).mulVec (dirVec ((![0, 1, 2] : Fin 3 → ℝ) q) ((![π / 2, π / 2, 0] : Fin 3 → ℝ) q))) (by
    rw [C04_dot]
    simp only [dirVec, dotProduct, Fin.sum_univ_three, Matrix.cons_val_zero, Matrix.cons_val_one, Matrix.cons_val]
    have := sin_sq_add_cos_sq ((![0, 1, 2] : Fin 3 → ℝ) q); have := sin_sq_add_cos_sq ((![π / 2, π / 2, 0] : Fin 3 → ℝ) q); nlinarith)
  refine ⟨cond ℝ, hcond ℝ, h1, ?_⟩
  rw [C114_rotated le_rfl ![0, 1, 2] ![π / 2, π / 2, 0] _ _ ?_ ?_ 1 2 3 ?_ none (cond ℝ) (hcond ℝ), h1]
  · intro q; fin_cases q <;> constructor <;> simp <;> linarith [pi_pos]
  · exact fun q => (hv q).1
  · exact fun q => (hv q).2

end Verif.Props
