import Verif.Props.SphDesigns
import Verif.Proofs.Directions

/-!
C84: quadrature weights of an arbitrary grid (`grids.calculate_grid_weights`).
-/

namespace Verif.Props
open Real MvPolynomial Verif.Sph Verif.Grids

/-- Specification: point weights that integrate every polynomial of degree at most `N` over the sphere. -/
def Integrates {Q : ℕ} (N : ℕ) (azi zen w : Fin Q → ℝ) : Prop := ∀ p : MvPolynomial (Fin 3) ℝ, p.totalDegree ≤ N →
  ∑ q, w q * eval (dirVec (azi q) (zen q)) p = ∫ a in (0 : ℝ)..(2 * π), ∫ z in (0 : ℝ)..π, eval (dirVec a z) p * sin z

theorem integrates_iff {Q : ℕ} (N : ℕ) (azi zen w : Fin Q → ℝ) (hz : ∀ q, zen q ∈ Set.Icc 0 π) :
    Integrates N azi zen w ↔ Matrix.vecMul w (shMat N azi zen) = fun k => if k = ⟨0, sq_pos' N⟩ then √(4 * π) else 0 := by
  have h4 : (4 * π) ≠ 0 := by positivity
  have hs : (4 * π) / √(4 * π) = √(4 * π) := Real.div_sqrt
  have hint : ∀ f : ℝ → ℝ → ℝ, ∫ a in (0 : ℝ)..(2 * π), ∫ z in (0 : ℝ)..π, f a z * sin z = 4 * π * sphereMean f := by
    intro f; unfold sphereMean; field_simp
  have hmean : ∀ k : Fin ((N + 1) ^ 2), sphereMean (fun a z => shVec N a z k)
      = if acnOrder k = 0 ∧ acnDegree k = 0 then 1 / √(4 * π) else 0 := fun k => mean_sh _ _ (acnDegree_abs k)
  constructor
  · intro h
    funext k
    obtain ⟨p, hp, hpe⟩ := expand_poly N (Pi.single k 1)
    have he : ∀ a z, z ∈ Set.Icc 0 π → eval (dirVec a z) p = shVec N a z k := by
      intro a z hz
      rw [← sphPt_dirVec a hz, hpe, Finset.sum_eq_single k]
      · simp
      · intro b _ hb; simp [hb]
      · simp
    have h1 := h p hp
    rw [hint, sphereMean_congr he, hmean] at h1
    have h2 : ∑ q, w q * eval (dirVec (azi q) (zen q)) p = Matrix.vecMul w (shMat N azi zen) k :=
      Finset.sum_congr rfl fun q _ => by rw [he _ _ (hz q)]; rfl
    rw [← h2, h1]
    by_cases hk : k = ⟨0, sq_pos' N⟩
    · rw [if_pos hk, if_pos ((acn_zero_iff k).2 (by rw [hk])), mul_one_div, hs]
    · rw [if_neg hk, if_neg (fun hh => hk (Fin.ext ((acn_zero_iff k).1 hh))), mul_zero]
  · intro h p hp
    rw [hint]
    refine quad_of_sh azi zen w hz N (4 * π) (fun n m hm hn => ?_) p hp
    have hb := abs_le.1 hm
    obtain ⟨k, hk, rfl⟩ : ∃ k : ℕ, k ≤ 2 * n ∧ m = (k : ℤ) - n := ⟨(m + n).toNat, by omega, by omega⟩
    have hlt : n ^ 2 + k < (N + 1) ^ 2 := by nlinarith
    have h1 := congrFun h ⟨n ^ 2 + k, hlt⟩
    have h2 : Matrix.vecMul w (shMat N azi zen) ⟨n ^ 2 + k, hlt⟩ = ∑ q, w q * realSH n ((k : ℤ) - n) (azi q) (zen q) := by
      show ∑ q, w q * shMat N azi zen q ⟨n ^ 2 + k, hlt⟩ = _
      exact Finset.sum_congr rfl fun q _ => by
        show w q * realSH (acnOrder (n ^ 2 + k)) (acnDegree (n ^ 2 + k)) (azi q) (zen q) = _
        rw [acnOrder_eq hk, acnDegree_eq hk]
    rw [← h2, h1, hs]
    by_cases h0 : n = 0 ∧ (k : ℤ) - n = 0
    · rw [if_pos h0, if_pos]
      obtain ⟨rfl, h0⟩ := h0
      exact Fin.ext (by show 0 ^ 2 + k = 0; push_cast at h0; omega)
    · rw [if_neg h0, if_neg]
      intro hh
      have := congrArg Fin.val hh
      simp only at this
      refine h0 ⟨?_, ?_⟩
      · by_contra hn0
        have : 0 < n ^ 2 := by positivity
        omega
      · have : n = 0 := by
          by_contra hn0
          have : 0 < n ^ 2 := by positivity
          omega
        subst this; omega

/-- The order a call ends up with: the given one, or the last one before the first order `k ≤ 99` whose Gram matrix has a condition number
above `2 (k + 1)`. -/
def UsedOrder (cond : ℕ → ℝ) (order : Option ℤ) (N : ℕ) : Prop :=
  order = some (N : ℤ) ∨ order = none ∧ N + 1 ≤ 99 ∧ cond (N + 1) > 2 * ((N + 1 : ℕ) + 1 : ℝ) ∧
    ∀ k, 1 ≤ k → k ≤ N → cond k ≤ 2 * ((k : ℝ) + 1)

theorem searchOrder_some (cond : ℕ → ℝ) : ∀ (n s : ℕ) (N : ℕ), s ≤ N → N < s + n → cond (N + 1) > 2 * ((N + 1 : ℕ) + 1 : ℝ) →
    (∀ k, s + 1 ≤ k → k ≤ N → cond k ≤ 2 * ((k : ℝ) + 1)) → searchOrder cond ((List.range' s n).map (· + 1)) = some N
  | 0, s, N, h1, h2, _, _ => by omega
  | n + 1, s, N, h1, h2, h3, h4 => by
    rw [List.range'_succ, List.map_cons, searchOrder]
    rcases Nat.eq_or_lt_of_le h1 with rfl | h
    · rw [if_pos h3]; rfl
    · rw [if_neg (not_lt.2 (h4 (s + 1) le_rfl (by omega)))]
      exact searchOrder_some cond n (s + 1) N (by omega) (by omega) h3 fun k hk => h4 k (by omega)

theorem searchOrder_none (cond : ℕ → ℝ) : ∀ (l : List ℕ), (∀ k ∈ l, cond k ≤ 2 * ((k : ℝ) + 1)) → searchOrder cond l = none
  | [], _ => rfl
  | k :: l, h => by
    rw [searchOrder, if_neg (not_lt.2 (h k (by simp)))]
    exact searchOrder_none cond l fun k hk => h k (by simp [hk])

theorem weights_of_used {Q : ℕ} (cond : ℕ → ℝ) (pinv : (K : ℕ) → Matrix (Fin Q) (Fin K) ℝ → Matrix (Fin K) (Fin Q) ℝ)
    (azi zen : Fin Q → ℝ) (order : Option ℤ) (N : ℕ) (hu : UsedOrder cond order N) :
    calculateGridWeights cond pinv azi zen order = if 0 < N then .ok (gridWeights pinv azi zen N) else .error .assertionError := by
  have key : order.orElse (fun _ => (searchOrder cond ((List.range 99).map (· + 1))).map (fun (k : ℕ) => (k : ℤ))) = some (N : ℤ) := by
    rcases hu with rfl | ⟨rfl, h1, h2, h3⟩
    · rfl
    · rw [List.range_eq_range', searchOrder_some cond 99 0 N (by omega) (by omega) h2 (fun k hk => h3 k (by omega))]; rfl
  unfold calculateGridWeights
  rw [key]
  show (if 0 < (N : ℤ) then _ else _) = _
  by_cases h : 0 < N
  · rw [if_pos (by omega), if_pos h]; rfl
  · rw [if_neg (by omega), if_neg h]

/-- C84: on every grid on which the spherical harmonics of the order used are linearly independent, the weights integrate every polynomial up to
that degree exactly; among all weights which do that they have the least sum of squares, and the warning says that one is negative. -/
theorem C84_exact {Q N : ℕ} (cond : ℕ → ℝ) (pinv : (K : ℕ) → Matrix (Fin Q) (Fin K) ℝ → Matrix (Fin K) (Fin Q) ℝ)
    (hpinv : ∀ K A, IsPinv A (pinv K A)) (azi zen : Fin Q → ℝ) (hz : ∀ q, zen q ∈ Set.Icc 0 π) (order : Option ℤ) (hu : UsedOrder cond order N)
    (hN : 0 < N) (hrank : LinearIndependent ℝ (shMat N azi zen).col) :
    ∃ w warn, calculateGridWeights cond pinv azi zen order = .ok (w, warn) ∧ Integrates N azi zen w ∧ ∑ q, w q = 4 * π
      ∧ (∀ v, Integrates N azi zen v → ∑ q, w q ^ 2 ≤ ∑ q, v q ^ 2) ∧ (warn = true ↔ ∃ q, w q < 0) := by
  rw [weights_of_used cond pinv azi zen order N hu, if_pos hN]
  have hP := hpinv _ (shMat N azi zen)
  set P := pinv _ (shMat N azi zen) with hPdef
  have hleft := pinv_left hP hrank
  set w : Fin Q → ℝ := fun q => √(4 * π) * P ⟨0, sq_pos' _⟩ q with hw
  have hwY : Matrix.vecMul w (shMat N azi zen) = fun k => if k = ⟨0, sq_pos' N⟩ then √(4 * π) else 0 := by
    funext k
    have h1 := congrFun (congrFun hleft ⟨0, sq_pos' N⟩) k
    rw [Matrix.mul_apply, Matrix.one_apply] at h1
    have h2 : Matrix.vecMul w (shMat N azi zen) k = √(4 * π) * ∑ q, P ⟨0, sq_pos' N⟩ q * shMat N azi zen q k := by
      rw [Finset.mul_sum]
      show ∑ q, w q * shMat N azi zen q k = _
      exact Finset.sum_congr rfl fun q _ => by rw [hw]; ring
    rw [h2, h1]
    by_cases hk : k = ⟨0, sq_pos' N⟩
    · rw [if_pos hk, if_pos hk.symm, mul_one]
    · rw [if_neg hk, if_neg (Ne.symm hk), mul_zero]
  have hI : Integrates N azi zen w := (integrates_iff N azi zen w hz).2 hwY
  have hsum : ∑ q, w q = 4 * π := by
    have h1 := congrFun hwY ⟨0, sq_pos' N⟩
    rw [if_pos rfl] at h1
    have h2 : Matrix.vecMul w (shMat N azi zen) ⟨0, sq_pos' N⟩ = (∑ q, w q) * (1 / √(4 * π)) := by
      rw [Finset.sum_mul]
      show ∑ q, w q * shMat N azi zen q ⟨0, sq_pos' N⟩ = _
      refine Finset.sum_congr rfl fun q _ => ?_
      show w q * realSH 0 0 (azi q) (zen q) = _
      rw [realSH_zero]
    rw [h2, mul_one_div, div_eq_iff (by positivity), Real.mul_self_sqrt (by positivity)] at h1
    exact h1
  refine ⟨w, _, rfl, hI, hsum, fun v hv => ?_, ?_⟩
  · have hv2 := (integrates_iff N azi zen v hz).1 hv
    have hap : (shMat N azi zen * P).transpose = shMat N azi zen * P := hP.ap
    -- `w` lies in the column space of the SH matrix
    have hwap : Matrix.vecMul w (shMat N azi zen * P) = w := by
      rw [← Matrix.vecMul_vecMul, hwY]
      funext q
      show ∑ k, (if k = ⟨0, sq_pos' N⟩ then √(4 * π) else 0) * P k q = _
      rw [Finset.sum_eq_single ⟨0, sq_pos' N⟩ (fun b _ hb => by rw [if_neg hb, zero_mul]) (by simp), if_pos rfl]
    have hvap : Matrix.vecMul v (shMat N azi zen * P) = w := by
      rw [← Matrix.vecMul_vecMul, hv2, ← hwY, Matrix.vecMul_vecMul, hwap]
    have horth : ∑ q, w q * (v q - w q) = 0 := by
      have h1 : Matrix.vecMul (v - w) (shMat N azi zen * P) = 0 := by rw [Matrix.sub_vecMul, hvap, hwap, sub_self]
      have h2 : ∑ q, w q * (v q - w q) = dotProduct (Matrix.vecMul w (shMat N azi zen * P)) (v - w) := by rw [hwap]; rfl
      rw [h2, ← Matrix.dotProduct_mulVec, ← hap, Matrix.mulVec_transpose, h1, dotProduct_zero]
    have h3 : ∑ q, v q ^ 2 = ∑ q, w q ^ 2 + 2 * ∑ q, w q * (v q - w q) + ∑ q, (v q - w q) ^ 2 := by
      rw [Finset.mul_sum, ← Finset.sum_add_distrib, ← Finset.sum_add_distrib]
      exact Finset.sum_congr rfl fun q _ => by ring
    rw [h3, horth]
    have : 0 ≤ ∑ q, (v q - w q) ^ 2 := Finset.sum_nonneg fun q _ => sq_nonneg _
    linarith
  · rw [decide_eq_true_iff]
    constructor
    · rintro (h | h)
      · exfalso
        have : ∑ q, w q - 4 * π = 0 := by rw [hsum, sub_self]
        rw [gt_iff_lt] at h
        have h' : (0.01 : ℝ) < |∑ q, w q - 4 * π| := h
        rw [this, abs_zero] at h'
        norm_num at h'
      · exact h
    · exact fun h => .inr h

/-- C84: on a t-design of degree at least twice the order all weights are `4π/Q`, and there is no warning. -/
theorem C84_design {Q N t : ℕ} (cond : ℕ → ℝ) (pinv : (K : ℕ) → Matrix (Fin Q) (Fin K) ℝ → Matrix (Fin K) (Fin Q) ℝ)
    (hpinv : ∀ K A, IsPinv A (pinv K A)) (azi zen : Fin Q → ℝ) (hd : IsTDesign t azi zen) (ht : 2 * N ≤ t) (hN : 0 < N) :
    calculateGridWeights cond pinv azi zen (some (N : ℤ)) = .ok (fun _ => 4 * π / Q, false) := by
  obtain ⟨w, warn, h1, h2, h3, h4, h5⟩ := C84_exact cond pinv hpinv azi zen hd.zenith (some (N : ℤ)) (.inl rfl) hN (design_rank hd ht)
  have hQ : (0 : ℝ) < Q := by have := hd.pos; exact_mod_cast this
  have hv : Integrates N azi zen (fun _ => 4 * π / Q) := by
    intro p hp
    have := hd.exact p (by omega)
    rw [← Finset.mul_sum]
    unfold sphereMean at this
    have h4 : (4 * π) ≠ 0 := by positivity
    field_simp at this ⊢
    linarith
  have hle := h4 _ hv
  have hc : ∑ q, (w q - 4 * π / Q) ^ 2 = ∑ q, w q ^ 2 - ∑ _q : Fin Q, (4 * π / Q) ^ 2 := by
    have e : ∑ q, (w q - 4 * π / Q) ^ 2 = ∑ q, w q ^ 2 - 2 * (4 * π / Q) * ∑ q, w q + ∑ _q : Fin Q, (4 * π / Q) ^ 2 := by
      rw [Finset.mul_sum, ← Finset.sum_sub_distrib, ← Finset.sum_add_distrib]
      exact Finset.sum_congr rfl fun q _ => by ring
    rw [e, h3]
    simp only [Finset.sum_const, Finset.card_univ, Fintype.card_fin, nsmul_eq_mul]
    field_simp
    ring
  have hz : ∑ q, (w q - 4 * π / Q) ^ 2 = 0 :=
    le_antisymm (by rw [hc]; linarith) (Finset.sum_nonneg fun q _ => sq_nonneg _)
  rw [Finset.sum_eq_zero_iff_of_nonneg (fun q _ => sq_nonneg _)] at hz
  have hw : w = fun _ => 4 * π / Q := by
    funext q
    have := hz q (Finset.mem_univ _)
    rw [sq_eq_zero_iff, sub_eq_zero] at this
    exact this
  have hwarn : warn = false := by
    rw [Bool.eq_false_iff]
    intro h
    obtain ⟨q, hq⟩ := h5.1 h
    rw [hw] at hq
    have : 0 < 4 * π / Q := by positivity
    linarith
  rw [h1, hw, hwarn]

/-- C84: an order below one fails the assertion, given or found; and if no order from 1 to 99 is badly conditioned, the search ends without an
order and `None > 0` raises `TypeError`. -/
theorem C84_errors {Q : ℕ} (cond : ℕ → ℝ) (pinv : (K : ℕ) → Matrix (Fin Q) (Fin K) ℝ → Matrix (Fin K) (Fin Q) ℝ) (azi zen : Fin Q → ℝ) :
    (∀ n : ℤ, n ≤ 0 → calculateGridWeights cond pinv azi zen (some n) = .error .assertionError)
    ∧ (cond 1 > 4 → calculateGridWeights cond pinv azi zen none = .error .assertionError)
    ∧ ((∀ k, 1 ≤ k → k ≤ 99 → cond k ≤ 2 * ((k : ℝ) + 1)) → calculateGridWeights cond pinv azi zen none = .error .typeError) := by
  refine ⟨fun n hn => ?_, fun h => ?_, fun h => ?_⟩
  · unfold calculateGridWeights
    show (if 0 < n then _ else _) = _
    rw [if_neg (by omega)]
  · rw [weights_of_used cond pinv azi zen none 0 (.inr ⟨rfl, by norm_num, by norm_num; linarith, by intro k; omega⟩), if_neg (by omega)]
  · unfold calculateGridWeights
    rw [searchOrder_none cond _ (fun k hk => by
      obtain ⟨j, hj, rfl⟩ := List.mem_map.1 hk
      exact h _ (by omega) (by have := List.mem_range.1 hj; omega))]
    rfl

/-- The hypotheses of `C84_exact` and `C84_design` are met by the cube. -/
example : ∃ (azi zen : Fin 8 → ℝ) (pinv : (K : ℕ) → Matrix (Fin 8) (Fin K) ℝ → Matrix (Fin K) (Fin 8) ℝ),
    calculateGridWeights (fun _ => 1) pinv azi zen (some (1 : ℕ)) = .ok (fun _ => 4 * π / (8 : ℕ), false) := by
  obtain ⟨azi, zen, hd⟩ := cube_design
  choose P hP using fun (K : ℕ) (A : Matrix (Fin 8) (Fin K) ℝ) => exists_pinv A
  exact ⟨azi, zen, P, C84_design _ P hP azi zen hd (by norm_num) one_pos⟩

/-- A search that finds order 2. -/
example : UsedOrder (fun k => if k ≤ 2 then 1 else 1000) none 2 := by
  refine .inr ⟨rfl, by norm_num, by norm_num, fun k h1 h2 => ?_⟩
  simp only [h2, if_true]
  have : (0 : ℝ) ≤ k := by positivity
  linarith

/-- The hypothesis of the `TypeError`. -/
example {Q : ℕ} (azi zen : Fin Q → ℝ) : calculateGridWeights (fun _ => 1) (fun _ _ => 0) azi zen none = .error .typeError :=
  (C84_errors _ _ azi zen).2.2 fun k h _ => by have : (1 : ℝ) ≤ k := by exact_mod_cast h
                                               linarith

/-- `C24_pinv`: the corners of a cube, first order, weights 1. -/
example : ∃ (azi zen : Fin (7 + 1) → ℝ) (pinv : Matrix (Fin (7 + 1)) (Fin ((1 + 1) ^ 2)) ℝ → Matrix (Fin ((1 + 1) ^ 2)) (Fin (7 + 1)) ℝ)
    (A : Matrix (Fin (7 + 1)) (Fin ((1 + 1) ^ 2)) ℝ) (B : Matrix (Fin ((1 + 1) ^ 2)) (Fin (7 + 1)) ℝ),
    designFilterbank 1 azi zen (fun _ => 1) .pinv pinv = .ok (A, B) ∧ B * A = 1 := by
  obtain ⟨azi, zen, hd⟩ := cube_design
  choose P hP using fun (A : Matrix (Fin (7 + 1)) (Fin ((1 + 1) ^ 2)) ℝ) => exists_pinv A
  have e : (Matrix.of fun (j : Fin (7 + 1)) (q : Fin ((1 + 1) ^ 2)) => (1 : ℝ) * shMat 1 azi zen j q) = shMat 1 azi zen := by
    ext j q; simp
  obtain ⟨A, B, h1, h2, -⟩ := C24_pinv (N := 1) azi zen (fun _ => 1) P hP (by rw [e]; exact design_rank hd (by norm_num))
  exact ⟨azi, zen, P, A, B, h1, h2⟩

end Verif.Props
