import Verif.Proofs.GridLists
import Verif.Props.Grids
import Mathlib.Algebra.MvPolynomial.Degrees
import Mathlib.LinearAlgebra.Dimension.Constructions
import Mathlib.LinearAlgebra.FiniteDimensional.Lemmas

/-!
Polynomials of degree at most `N` on the unit sphere are exactly the expansions of order `N`.
-/

namespace Verif.Sph
open Real MvPolynomial Verif.Solid

/-! ### The harmonics are polynomials -/

/-- The real harmonic of order `n`, degree `m` as a polynomial in three variables. -/
noncomputable def harmPoly (n : ℕ) (m : ℤ) : MvPolynomial (Fin 3) ℝ := harm (X 0) (X 1) (X 2) n m

theorem totalDegree_cs (m : ℕ) : (cs (X 0 : MvPolynomial (Fin 3) ℝ) (X 1) m).1.totalDegree ≤ m ∧
    (cs (X 0 : MvPolynomial (Fin 3) ℝ) (X 1) m).2.totalDegree ≤ m := by
  induction m with
  | zero => simp [cs]
  | succ m ih =>
    have hx : ∀ (i : Fin 3) (p : MvPolynomial (Fin 3) ℝ), p.totalDegree ≤ m → (X i * p).totalDegree ≤ m + 1 := by
      intro i p hp
      refine (totalDegree_mul _ _).trans ?_
      rw [totalDegree_X]; omega
    constructor
    · exact (totalDegree_sub _ _).trans (max_le (hx 0 _ ih.1) (hx 1 _ ih.2))
    · exact (totalDegree_add _ _).trans (max_le (hx 0 _ ih.2) (hx 1 _ ih.1))

theorem totalDegree_W : (W (X 0 : MvPolynomial (Fin 3) ℝ) (X 1)).totalDegree ≤ 2 := by
  unfold W
  refine (totalDegree_smul_le _ _).trans ((totalDegree_add _ _).trans (max_le ?_ ?_))
  all_goals
    refine (totalDegree_pow _ _).trans ?_
    rw [totalDegree_X]

theorem totalDegree_T (l m : ℕ) : (T (X 2 : MvPolynomial (Fin 3) ℝ) (W (X 0) (X 1)) l m).totalDegree ≤ l - m := by
  unfold T
  refine totalDegree_finsetSum_le fun k _ => ?_
  unfold term
  split_ifs with h
  · refine (totalDegree_smul_le _ _).trans ((totalDegree_mul _ _).trans ?_)
    have h1 : (W (X 0 : MvPolynomial (Fin 3) ℝ) (X 1) ^ k).totalDegree ≤ k * 2 :=
      (totalDegree_pow _ _).trans (Nat.mul_le_mul_left _ totalDegree_W)
    have h2 : ((X 2 : MvPolynomial (Fin 3) ℝ) ^ (l - m - 2 * k)).totalDegree ≤ l - m - 2 * k := by
      refine (totalDegree_pow _ _).trans ?_
      rw [totalDegree_X, mul_one]
    omega
  · simp

theorem totalDegree_harmPoly (n : ℕ) (m : ℤ) : (harmPoly n m).totalDegree ≤ n := by
  have hprod : ∀ (k : ℕ) (p : MvPolynomial (Fin 3) ℝ), p.totalDegree ≤ k →
      (p * T (X 2 : MvPolynomial (Fin 3) ℝ) (W (X 0) (X 1)) n k).totalDegree ≤ n := by
    intro k p hp
    rcases Nat.lt_or_ge n k with h | h
    · rw [T_zero_of_lt _ _ h]; simp
    · refine (totalDegree_mul _ _).trans ?_
      have := totalDegree_T n k
      omega
  have hC : ∀ k, (Cc (X 0 : MvPolynomial (Fin 3) ℝ) (X 1) (X 2) n k).totalDegree ≤ n := fun k =>
    (totalDegree_smul_le _ _).trans (hprod k _ (totalDegree_cs k).1)
  have hS : ∀ k, (Ss (X 0 : MvPolynomial (Fin 3) ℝ) (X 1) (X 2) n k).totalDegree ≤ n := fun k =>
    (totalDegree_smul_le _ _).trans (hprod k _ (totalDegree_cs k).2)
  unfold harmPoly harm
  split_ifs
  · exact (totalDegree_smul_le _ _).trans (hC _)
  · exact (totalDegree_smul_le _ _).trans (hC _)
  · exact (totalDegree_smul_le _ _).trans (hS _)

theorem eval_harmPoly (v : Fin 3 → ℝ) (n : ℕ) (m : ℤ) : eval v (harmPoly n m) = harm (v 0) (v 1) (v 2) n m := by
  have := map_harm (aeval v : MvPolynomial (Fin 3) ℝ →ₐ[ℝ] ℝ) (X 0) (X 1) (X 2) n m
  simp only [aeval_X] at this
  rw [← this]; rfl

/-- The point on the sphere at which `sh_matrix` evaluates for any real zenith. -/
noncomputable def sphPt (azi zen : ℝ) : Fin 3 → ℝ := ![cos azi * |sin zen|, sin azi * |sin zen|, cos zen]

theorem sphPt_norm (azi zen : ℝ) : sphPt azi zen 0 ^ 2 + sphPt azi zen 1 ^ 2 + sphPt azi zen 2 ^ 2 = 1 := by
  simp only [sphPt, Matrix.cons_val_zero, Matrix.cons_val_one, Matrix.cons_val]
  rw [mul_pow, mul_pow, sq_abs]
  linear_combination (sin zen ^ 2) * cos_sq_add_sin_sq azi + sin_sq_add_cos_sq zen

theorem realSH_eval (n : ℕ) (m : ℤ) (azi zen : ℝ) :
    realSH n m azi zen = eval (sphPt azi zen) (C (√((2 * n + 1) / (4 * π))) * harmPoly n m) := by
  rw [realSH_eq_harm, eval_mul, eval_C, eval_harmPoly]; rfl

/-! ### Dimension count -/

/-- Restriction of a polynomial to the directions. -/
noncomputable def restr : MvPolynomial (Fin 3) ℝ →ₗ[ℝ] (ℝ × ℝ → ℝ) where
  toFun p d := eval (sphPt d.1 d.2) p
  map_add' p q := by ext; simp
  map_smul' c p := by ext; simp [smul_eval]

/-- `x^a y^b z^c`. -/
noncomputable def mon (a b c : ℕ) : MvPolynomial (Fin 3) ℝ := X 0 ^ a * X 1 ^ b * X 2 ^ c

/-- The reduced monomials (`c ≤ 1`), enumerated like the harmonics. -/
noncomputable def redMon (q : ℕ) : MvPolynomial (Fin 3) ℝ :=
  let n := Nat.sqrt q
  let k := q - n ^ 2
  if k ≤ n then mon k (n - k) 0 else mon (k - n - 1) (2 * n - k) 1

/-- Functions spanned by the reduced monomials of degree at most `N`. -/
noncomputable def redSpan (N : ℕ) : Submodule ℝ (ℝ × ℝ → ℝ) :=
  Submodule.span ℝ (Set.range fun q : Fin ((N + 1) ^ 2) => restr (redMon q))

theorem sqrt_add {n k : ℕ} (h : k ≤ 2 * n) : Nat.sqrt (n ^ 2 + k) = n := Nat.sqrt_add_eq' n (by omega)

theorem redMon_mem {N q : ℕ} (h : q < (N + 1) ^ 2) : restr (redMon q) ∈ redSpan N :=
  Submodule.subset_span ⟨⟨q, h⟩, rfl⟩

theorem mon_mem (N : ℕ) : ∀ (c a b : ℕ), a + b + c ≤ N → restr (mon a b c) ∈ redSpan N := by
  intro c
  induction c using Nat.strong_induction_on with
  | _ c ih =>
    intro a b h
    rcases c with _ | _ | c
    · have e : redMon ((a + b) ^ 2 + a) = mon a b 0 := by
        unfold redMon
        rw [sqrt_add (by omega)]
        simp
      rw [← e]
      exact redMon_mem (by nlinarith)
    · have e : redMon ((a + b + 1) ^ 2 + (a + b + 1 + 1 + a)) = mon a b 1 := by
        unfold redMon
        rw [sqrt_add (by omega)]
        simp only [Nat.add_sub_cancel_left]
        rw [if_neg (by omega)]
        congr 1 <;> omega
      rw [show 0 + 1 = 1 from rfl, ← e]
      exact redMon_mem (by nlinarith)
    · have e : restr (mon a b (c + 2)) = restr (mon a b c) - restr (mon (a + 2) b c) - restr (mon a (b + 2) c) := by
        ext d
        show eval (sphPt d.1 d.2) _ = eval (sphPt d.1 d.2) _ - eval (sphPt d.1 d.2) _ - eval (sphPt d.1 d.2) _
        simp only [mon, eval_mul, eval_pow, eval_X]
        linear_combination (sphPt d.1 d.2 0 ^ a * sphPt d.1 d.2 1 ^ b * sphPt d.1 d.2 2 ^ c) * sphPt_norm d.1 d.2
      show restr (mon a b (c + 2)) ∈ _
      rw [e]
      exact Submodule.sub_mem _ (Submodule.sub_mem _ (ih c (by omega) a b (by omega)) (ih c (by omega) _ _ (by omega)))
        (ih c (by omega) _ _ (by omega))

theorem poly_mem (N : ℕ) (p : MvPolynomial (Fin 3) ℝ) (hp : p.totalDegree ≤ N) : restr p ∈ redSpan N := by
  rw [p.as_sum, map_sum]
  refine Submodule.sum_mem _ fun s hs => ?_
  have hd : s.sum (fun _ e => e) ≤ N := (le_totalDegree hs).trans hp
  have e : monomial s (coeff s p) = (coeff s p) • mon (s 0) (s 1) (s 2) := by
    rw [monomial_eq, smul_eq_C_mul, Finsupp.prod_fintype _ _ (fun i => pow_zero _), Fin.prod_univ_three]; rfl
  rw [e, map_smul]
  refine Submodule.smul_mem _ _ (mon_mem N _ _ _ ?_)
  rw [Finsupp.sum_fintype _ _ (fun i => rfl), Fin.sum_univ_three] at hd
  exact hd

/-- Functions spanned by the harmonics of order at most `N`. -/
noncomputable def shSpan (N : ℕ) : Submodule ℝ (ℝ × ℝ → ℝ) :=
  Submodule.span ℝ (Set.range fun (q : Fin ((N + 1) ^ 2)) (d : ℝ × ℝ) => shVec N d.1 d.2 q)

theorem shVec_restr (N : ℕ) (q : Fin ((N + 1) ^ 2)) : (fun d : ℝ × ℝ => shVec N d.1 d.2 q)
    = restr (C (√((2 * (acnOrder q : ℕ) + 1) / (4 * π))) * harmPoly (acnOrder q) (acnDegree q)) := by
  ext d; exact realSH_eval _ _ _ _

theorem shSpan_le (N : ℕ) : shSpan N ≤ redSpan N := by
  refine Submodule.span_le.2 ?_
  rintro _ ⟨q, rfl⟩
  show (fun d : ℝ × ℝ => shVec N d.1 d.2 q) ∈ _
  rw [shVec_restr]
  refine poly_mem N _ ((totalDegree_mul _ _).trans ?_)
  rw [totalDegree_C, zero_add]
  exact (totalDegree_harmPoly _ _).trans (acnOrder_le q.2)

theorem sh_linearIndependent (N : ℕ) :
    LinearIndependent ℝ (fun (q : Fin ((N + 1) ^ 2)) (d : ℝ × ℝ) => shVec N d.1 d.2 q) := by
  rw [Fintype.linearIndependent_iff]
  intro c hc
  obtain ⟨azi, zen, w, hg⟩ : ∃ azi zen w : Fin ((2 * N + 2) ^ 2) → ℝ,
      Grids.equalAngle N = (List.ofFn azi, List.ofFn zen, List.ofFn w) := by
    have hG := Props.C27_equal_angle N
    have toFn : ∀ l : List ℝ, l.length = (2 * N + 2) ^ 2 → ∃ u : Fin ((2 * N + 2) ^ 2) → ℝ, l = List.ofFn u := fun l h =>
      ⟨fun q => l[q]'(by omega), by
        apply List.ext_getElem (by simp [h])
        intro i h1 h2; rw [List.getElem_ofFn]; rfl⟩
    obtain ⟨a, ha⟩ := toFn _ hG.1
    obtain ⟨z, hz⟩ := toFn _ hG.2.1
    obtain ⟨w, hw⟩ := toFn _ hG.2.2.1
    exact ⟨a, z, w, by rw [← ha, ← hz, ← hw]⟩
  let cm : Matrix (Fin ((N + 1) ^ 2)) (Fin 1) ℝ := fun q _ => c q
  have h := Props.C22_equal_angle N 1 cm azi zen w hg (some N) (.inr rfl)
  have h0 : (shMat N azi zen * cm) = 0 := by
    ext i s
    refine (Matrix.mul_apply).trans ?_
    have := congrFun hc (azi i, zen i)
    simp only [Finset.sum_apply, Pi.smul_apply, smul_eq_mul, Pi.zero_apply] at this
    rw [Matrix.zero_apply, ← this]
    exact Finset.sum_congr rfl fun q _ => mul_comm _ _
  have key : inverseSht cm azi zen (some N)
      = .ok (shMat N azi zen * cm) := by
    unfold inverseSht
    rw [if_neg (by simp)]
    exact (dif_pos (le_refl ((N + 1) ^ 2))).trans rfl
  rw [key, h0] at h
  have h : (sht (shMat N azi zen) (some w) (0 : Matrix (Fin ((2 * N + 2) ^ 2)) (Fin 1) ℝ)) = fun q _ => c q := by
    have : (Except.ok (sht (shMat N azi zen) (some w) 0) : Py _) = .ok (fun q (_ : Fin 1) => c q) := h
    exact Except.ok.inj this
  intro q
  have := congrFun (congrFun h q) 0
  rw [← this]
  show ((shMat N azi zen).transpose * (Matrix.diagonal w * (0 : Matrix (Fin ((2 * N + 2) ^ 2)) (Fin 1) ℝ))) q 0 = 0
  rw [Matrix.mul_zero, Matrix.mul_zero]; rfl

theorem shSpan_eq (N : ℕ) : shSpan N = redSpan N := by
  have : FiniteDimensional ℝ (redSpan N) := FiniteDimensional.span_of_finite ℝ (Set.finite_range _)
  refine Submodule.eq_of_le_of_finrank_le (shSpan_le N) ?_
  have h1 : Module.finrank ℝ (shSpan N) = (N + 1) ^ 2 := by
    rw [shSpan, finrank_span_eq_card (sh_linearIndependent N), Fintype.card_fin]
  have h2 : Module.finrank ℝ (redSpan N) ≤ (N + 1) ^ 2 := by
    have := finrank_range_le_card (R := ℝ) (fun q : Fin ((N + 1) ^ 2) => restr (redMon q))
    rw [Fintype.card_fin] at this
    exact this
  omega

/-- Every polynomial of degree at most `N` is, on the sphere, an SH expansion of order `N`. -/
theorem poly_expand (N : ℕ) (p : MvPolynomial (Fin 3) ℝ) (hp : p.totalDegree ≤ N) :
    ∃ c : Fin ((N + 1) ^ 2) → ℝ, ∀ azi zen : ℝ, eval (sphPt azi zen) p = ∑ q, c q * shVec N azi zen q := by
  have h := poly_mem N p hp
  rw [← shSpan_eq, shSpan, Submodule.mem_span_range_iff_exists_fun] at h
  obtain ⟨c, hc⟩ := h
  refine ⟨c, fun azi zen => ?_⟩
  have := congrFun hc (azi, zen)
  simp only [Finset.sum_apply, Pi.smul_apply, smul_eq_mul] at this
  exact this.symm

/-- An SH expansion of order `N` is a polynomial of degree at most `N` on the sphere. -/
theorem expand_poly (N : ℕ) (c : Fin ((N + 1) ^ 2) → ℝ) : ∃ p : MvPolynomial (Fin 3) ℝ, p.totalDegree ≤ N ∧
    ∀ azi zen : ℝ, eval (sphPt azi zen) p = ∑ q, c q * shVec N azi zen q := by
  refine ⟨∑ q, C (c q) * (C (√((2 * (acnOrder q : ℕ) + 1) / (4 * π))) * harmPoly (acnOrder q) (acnDegree q)), ?_, fun azi zen => ?_⟩
  · refine totalDegree_finsetSum_le fun q _ => ?_
    refine (totalDegree_mul _ _).trans ?_
    rw [totalDegree_C, zero_add]
    refine (totalDegree_mul _ _).trans ?_
    rw [totalDegree_C, zero_add]
    exact (totalDegree_harmPoly _ _).trans (acnOrder_le q.2)
  · rw [map_sum]
    refine Finset.sum_congr rfl fun q _ => ?_
    rw [eval_mul, eval_C, ← realSH_eval]; rfl

end Verif.Sph
