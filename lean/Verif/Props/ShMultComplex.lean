import Verif.Props.ShComplex
import Verif.Props.FiveDesign

/-!
C180: `sph.sh_mult` with complex spherical harmonics.
-/

namespace Verif.Props
open Real MvPolynomial Verif.Sph

/-- A vector of coefficients as a column. -/
def colC {K : ℕ} (v : Fin K → ℂ) : Matrix (Fin K) (Fin 1) ℂ := fun q _ => v q

theorem colC_values {N Q : ℕ} (azi zen : Fin Q → ℝ) (v : Fin ((N + 1) ^ 2) → ℂ) (j : Fin Q) (s : Fin 1) :
    (shMatC N azi zen * colC v) j s = ∑ q, v q * shVecC N (azi j) (zen j) q :=
  Matrix.mul_apply.trans (Finset.sum_congr rfl fun _ _ => mul_comm _ _)

/-- An expansion in complex harmonics with real coefficients: real and imaginary part are polynomials on the sphere. -/
theorem complex_poly (N : ℕ) (u : Fin ((N + 1) ^ 2) → ℝ) : ∃ P R : MvPolynomial (Fin 3) ℝ, P.totalDegree ≤ N ∧ R.totalDegree ≤ N ∧
    ∀ a z, ∑ q, (u q : ℂ) * shVecC N a z q = ((eval (sphPt a z) P : ℝ) : ℂ) + Complex.I * ((eval (sphPt a z) R : ℝ) : ℂ) := by
  obtain ⟨H, hH⟩ : ∃ H : ℕ → ℤ → MvPolynomial (Fin 3) ℝ, H = fun (n : ℕ) (m : ℤ) => C (√((2 * (n : ℝ) + 1) / (4 * π))) * harmPoly n m := ⟨_, rfl⟩
  have hdeg : ∀ n m, (H n m).totalDegree ≤ n := fun n m => by
    rw [hH]
    refine (totalDegree_mul _ _).trans ?_
    rw [totalDegree_C, zero_add]
    exact totalDegree_harmPoly _ _
  have hev : ∀ n m a z, realSH n m a z = eval (sphPt a z) (H n m) := fun n m a z => by rw [hH]; exact realSH_eval n m a z
  have deg : ∀ (x y : Fin ((N + 1) ^ 2) → ℝ), (∑ q : Fin ((N + 1) ^ 2), C (u q) * (C (x q) * H (acnOrder q) |acnDegree q| + C (y q) * H (acnOrder q) (-|acnDegree q|))).totalDegree ≤ N := by
    intro x y
    refine totalDegree_finsetSum_le fun q _ => ?_
    refine (totalDegree_mul _ _).trans ?_
    rw [totalDegree_C, zero_add]
    refine (totalDegree_add _ _).trans (max_le ?_ ?_)
    · refine (totalDegree_mul _ _).trans ?_
      rw [totalDegree_C, zero_add]
      exact (hdeg _ _).trans (acnOrder_le q.2)
    · refine (totalDegree_mul _ _).trans ?_
      rw [totalDegree_C, zero_add]
      exact (hdeg _ _).trans (acnOrder_le q.2)
  refine ⟨_, _, deg (fun q => (cosCoef (acnDegree q)).re) (fun q => (sinCoef (acnDegree q)).re),
    deg (fun q => (cosCoef (acnDegree q)).im) (fun q => (sinCoef (acnDegree q)).im), fun a z => ?_⟩
  rw [map_sum, map_sum]
  push_cast
  rw [Finset.mul_sum, ← Finset.sum_add_distrib]
  refine Finset.sum_congr rfl fun q _ => ?_
  show (u q : ℂ) * sphHarm (acnDegree q) (acnOrder q) a z = _
  rw [sphHarm_expand, hev, hev]
  simp only [eval_mul, eval_add, eval_C]
  push_cast
  conv_lhs => rw [← Complex.re_add_im (cosCoef (acnDegree q)), ← Complex.re_add_im (sinCoef (acnDegree q))]
  ring

/-- Every real expansion is an expansion in complex harmonics. -/
theorem real_complex {N Q t : ℕ} {azi zen : Fin Q → ℝ} (hd : IsTDesign t azi zen) (h : 2 * N ≤ t) (r : Fin ((N + 1) ^ 2) → ℝ) :
    ∃ d : Fin ((N + 1) ^ 2) → ℂ, ∀ a z, ∑ q, d q * shVecC N a z q = ((∑ q, r q * shVec N a z q : ℝ) : ℂ) := by
  obtain ⟨R, hR⟩ : ∃ R : Matrix (Fin ((N + 1) ^ 2)) (Fin 1) ℝ, R = Matrix.of fun q _ => r q := ⟨_, rfl⟩
  obtain ⟨D, hD⟩ : ∃ D, D = shtC (shMatC N azi zen) none ((shMat N azi zen * R).map Complex.ofReal) := ⟨_, rfl⟩
  refine ⟨fun q => D q 0, fun a z => ?_⟩
  have key := C93_same_function (N := N) azi zen none (shMat N azi zen * R) (fun _ : Fin 1 => a) (fun _ => z) none (.inl rfl)
  rw [sht_design hd h, ← hD, inverseShtC_eq _ _ _ _ (.inl rfl), inverseSht_none _ _ _ N (C11_order_square N) le_rfl] at key
  have k2 := congrFun (congrFun (Except.ok.inj key) 0) 0
  rw [Matrix.mul_apply] at k2
  refine (Finset.sum_congr rfl fun q _ => mul_comm _ _).trans (k2.trans ?_)
  rw [hR]
  exact congrArg Complex.ofReal (Matrix.mul_apply.trans (Finset.sum_congr rfl fun q _ => mul_comm _ _))

/-- The coefficients with respect to the complex harmonics are unique. -/
theorem complex_unique {N Q t : ℕ} {azi zen : Fin Q → ℝ} (hd : IsTDesign t azi zen) (h : 2 * N ≤ t) (c c' : Fin ((N + 1) ^ 2) → ℂ)
    (he : ∀ a z, ∑ q, c q * shVecC N a z q = ∑ q, c' q * shVecC N a z q) : c = c' := by
  have back := fun c : Fin ((N + 1) ^ 2) → ℂ => C93_design (colC c) azi zen hd h none (.inl rfl)
  have e : inverseShtC (colC c) azi zen none = inverseShtC (colC c') azi zen none := by
    rw [inverseShtC_eq (colC c) _ _ _ (.inl rfl), inverseShtC_eq (colC c') _ _ _ (.inl rfl)]
    congr 1
    ext j s
    rw [colC_values, colC_values]
    exact he (azi j) (zen j)
  have e2 := (back c).symm.trans ((congrArg (Except.map (shtC (shMatC N azi zen) none)) e).trans (back c'))
  funext q
  exact congrFun (congrFun (Except.ok.inj e2) q) 0

theorem sphHarm_mirror (m : ℤ) (n : ℕ) (a z : ℝ) : (starRingEnd ℂ) (sphHarm m n a z) = sphHarm m n (-a) z := by
  have h0 : ∀ k : ℕ, (starRingEnd ℂ) (sphHarmNonneg k n a z) = sphHarmNonneg k n (-a) z := fun k => by
    unfold sphHarmNonneg
    rw [map_mul, Complex.conj_ofReal, ← Complex.exp_conj, map_mul, Complex.conj_ofReal, Complex.conj_I]
    congr 2
    push_cast
    ring
  unfold sphHarm
  split_ifs
  · exact h0 _
  · rw [map_mul, h0, map_pow, map_neg, map_one]

/-- C180: with complex harmonics, too, the coefficients returned expand to the product of the two expansions, in every direction; and they are real. -/
theorem C180_product (design : ℕ → Σ Q : ℕ, (Fin Q → ℝ) × (Fin Q → ℝ)) {N1 N2 : ℕ} (hpos : 1 ≤ N1 + N2) (hle : N1 + N2 ≤ 10)
    (hd : IsTDesign (2 * (N1 + N2)) (design (2 * (N1 + N2))).2.1 (design (2 * (N1 + N2))).2.2)
    (a : Fin ((N1 + 1) ^ 2) → ℝ) (b : Fin ((N2 + 1) ^ 2) → ℝ) :
    ∃ c : Fin ((N1 + N2 + 1) ^ 2) → ℝ, shMultC design a b = .ok ⟨(N1 + N2 + 1) ^ 2, fun q => (c q : ℂ)⟩ ∧ ∀ azi zen : ℝ,
      ∑ q, (c q : ℂ) * shVecC (N1 + N2) azi zen q = (∑ q, (a q : ℂ) * shVecC N1 azi zen q) * ∑ q, (b q : ℂ) * shVecC N2 azi zen q := by
  obtain ⟨P, R, hP, hR, h1⟩ := complex_poly N1 a
  obtain ⟨P', R', hP', hR', h2⟩ := complex_poly N2 b
  have hmul : ∀ {p p' : MvPolynomial (Fin 3) ℝ}, p.totalDegree ≤ N1 → p'.totalDegree ≤ N2 → (p * p').totalDegree ≤ N1 + N2 :=
    fun h h' => (totalDegree_mul _ _).trans (by omega)
  obtain ⟨r, hr⟩ := poly_expand (N1 + N2) (P * P' - R * R') ((totalDegree_sub _ _).trans (max_le (hmul hP hP') (hmul hR hR')))
  obtain ⟨i, hi⟩ := poly_expand (N1 + N2) (P * R' + R * P') ((totalDegree_add _ _).trans (max_le (hmul hP hR') (hmul hR hP')))
  obtain ⟨dr, hdr⟩ := real_complex hd le_rfl r
  obtain ⟨di, hdi⟩ := real_complex hd le_rfl i
  obtain ⟨d, hdd⟩ : ∃ d : Fin ((N1 + N2 + 1) ^ 2) → ℂ, d = fun q => dr q + Complex.I * di q := ⟨_, rfl⟩
  have hv : ∀ az z, ∑ q, d q * shVecC (N1 + N2) az z q = (∑ q, (a q : ℂ) * shVecC N1 az z q) * ∑ q, (b q : ℂ) * shVecC N2 az z q := by
    intro az z
    have : ∑ q, d q * shVecC (N1 + N2) az z q = ∑ q, dr q * shVecC (N1 + N2) az z q + Complex.I * ∑ q, di q * shVecC (N1 + N2) az z q := by
      rw [Finset.mul_sum, ← Finset.sum_add_distrib, hdd]
      exact Finset.sum_congr rfl fun q _ => by ring
    rw [this, hdr, hdi, ← hr, ← hi, h1, h2]
    simp only [eval_sub, eval_add, eval_mul]
    push_cast
    linear_combination -((eval (sphPt az z) R : ℝ) : ℂ) * ((eval (sphPt az z) R' : ℝ) : ℂ) * Complex.I_sq
  -- the coefficients are real
  have hreal : (fun q => (starRingEnd ℂ) (d q)) = d := by
    refine complex_unique hd le_rfl _ _ fun az z => ?_
    have hc : ∀ {N : ℕ} (u : Fin ((N + 1) ^ 2) → ℝ), (starRingEnd ℂ) (∑ q, (u q : ℂ) * shVecC N (-az) z q) = ∑ q, (u q : ℂ) * shVecC N az z q := fun u => by
      rw [map_sum]
      refine Finset.sum_congr rfl fun q _ => ?_
      rw [map_mul, Complex.conj_ofReal]
      congr 1
      show (starRingEnd ℂ) (sphHarm _ _ _ _) = sphHarm _ _ _ _
      rw [sphHarm_mirror, neg_neg]
    have := congrArg (starRingEnd ℂ) (hv (-az) z)
    rw [map_mul, hc, hc, ← hv, map_sum] at this
    rw [← this]
    refine Finset.sum_congr rfl fun q _ => ?_
    rw [map_mul]
    congr 1
    show sphHarm _ _ _ _ = (starRingEnd ℂ) (sphHarm _ _ _ _)
    rw [sphHarm_mirror, neg_neg]
  have hre : ∀ q, (((d q).re : ℝ) : ℂ) = d q := fun q => Complex.conj_eq_iff_re.1 (congrFun hreal q)
  refine ⟨fun q => (d q).re, ?_, fun az z => by rw [← hv]; exact Finset.sum_congr rfl fun q _ => by rw [hre]⟩
  have hsum : shOrder ((N1 + 1) ^ 2) + shOrder ((N2 + 1) ^ 2) = ((N1 + N2 : ℕ) : ℤ) := by rw [C11_order_square, C11_order_square]; push_cast; rfl
  have hcast : (2 * ((N1 + N2 : ℕ) : ℤ)).toNat = 2 * (N1 + N2) := by omega
  unfold shMultC
  dsimp only
  rw [hsum, if_neg (by omega), if_neg (by omega), Int.toNat_natCast, hcast, inverseShtC_eq (N := N1) (fun k (_ : Fin 1) => (a k : ℂ)) _ _ none (.inl rfl),
    inverseShtC_eq (N := N2) (fun k (_ : Fin 1) => (b k : ℂ)) _ _ none (.inl rfl)]
  have back := C93_design (colC d) _ _ hd le_rfl none (.inl rfl)
  rw [inverseShtC_eq (colC d) _ _ none (.inl rfl)] at back
  have hs := Except.ok.inj back
  have hf : (fun q s => (shMatC N1 (design (2 * (N1 + N2))).2.1 (design (2 * (N1 + N2))).2.2 * colC fun k => (a k : ℂ)) q s
      * (shMatC N2 (design (2 * (N1 + N2))).2.1 (design (2 * (N1 + N2))).2.2 * colC fun k => (b k : ℂ)) q s)
      = shMatC (N1 + N2) (design (2 * (N1 + N2))).2.1 (design (2 * (N1 + N2))).2.2 * colC d := by
    funext q s
    rw [colC_values, colC_values, colC_values, hv]
  show Except.ok _ = Except.ok _
  congr 2
  funext k
  rw [hre]
  exact (congrFun (congrFun (congrArg (shtC (shMatC (N1 + N2) (design (2 * (N1 + N2))).2.1 (design (2 * (N1 + N2))).2.2) none) hf) k) 0).trans (congrFun (congrFun hs k) 0)

/-- C180: outside `1 ≤ N1 + N2 ≤ 10` the call raises `ValueError`. -/
theorem C180_errors (design : ℕ → Σ Q : ℕ, (Fin Q → ℝ) × (Fin Q → ℝ)) {N1 N2 : ℕ} (a : Fin ((N1 + 1) ^ 2) → ℝ) (b : Fin ((N2 + 1) ^ 2) → ℝ)
    (h : N1 + N2 = 0 ∨ 10 < N1 + N2) : shMultC design a b = .error .valueError := by
  unfold shMultC
  simp only [C11_order_square]
  rcases h with h | h
  · rw [if_neg (by omega), if_pos (by omega)]
  · rw [if_pos (by omega)]

/-! #### examples -/

/-- `C180_product`: two functions of first order, with the design of strength five. -/
example (a b : Fin ((1 + 1) ^ 2) → ℝ) : ∃ (azi zen : Fin 24 → ℝ) (c : Fin ((1 + 1 + 1) ^ 2) → ℝ), shMultC (fun _ => ⟨24, azi, zen⟩) a b = .ok ⟨_, fun q => (c q : ℂ)⟩ := by
  obtain ⟨azi, zen, hd⟩ := five_design
  obtain ⟨c, h, -⟩ := C180_product (N1 := 1) (N2 := 1) (fun _ => ⟨24, azi, zen⟩) (by norm_num) (by norm_num)
    ⟨hd.pos, hd.zenith, fun p hp => hd.exact p (by omega)⟩ a b
  exact ⟨azi, zen, c, h⟩

/-- `C180_errors`: two constants. -/
example : shMultC (fun _ => ⟨0, fun _ => 0, fun _ => 0⟩) (fun _ : Fin ((0 + 1) ^ 2) => 1) (fun _ : Fin ((0 + 1) ^ 2) => 2) = .error .valueError :=
  C180_errors (N1 := 0) (N2 := 0) _ _ _ (.inl rfl)

end Verif.Props
