import Verif.Props.OrderWeights
import Verif.Props.Moments
import Verif.Props.Parseval
import Verif.Proofs.GaussLegendre

/-! How sharp any scene can be when decoded on a design: C174. -/

namespace Verif.Props
open Real Verif.Utils Verif.Decoder Verif.Sph Verif.Solid Verif.Grids
open MvPolynomial (eval totalDegree totalDegree_mul totalDegree_C totalDegree_X totalDegree_pow totalDegree_sub totalDegree_finset_sum)

/-- Beyond a point where `P_0 … P_N` are positive and `P_(N+1)` vanishes there is no further zero. -/
theorem legendre_beyond {N : ℕ} {x y : ℝ} (hpos : ∀ n ≤ N, 0 < evalLegendre n x) (hzero : evalLegendre (N + 1) x = 0) (hxy : x < y) : 0 < evalLegendre (N + 1) y := by
  have key : ∀ n ≤ N, 0 < evalLegendre n y ∧ evalLegendre (n + 1) x * evalLegendre n y < evalLegendre (n + 1) y * evalLegendre n x := by
    intro n
    induction n with
    | zero => intro _; simp [evalLegendre_zero, evalLegendre_one', hxy]
    | succ n ih =>
      intro hn
      obtain ⟨i1, i2⟩ := ih (by omega)
      have p0 := hpos n (by omega)
      have p1 := hpos (n + 1) hn
      have q1 : 0 < evalLegendre (n + 1) y := by
        by_contra hc
        push Not at hc
        have : evalLegendre (n + 1) y * evalLegendre n x ≤ 0 := mul_nonpos_of_nonpos_of_nonneg hc p0.le
        have : 0 < evalLegendre (n + 1) x * evalLegendre n y := mul_pos p1 i1
        linarith
      refine ⟨q1, ?_⟩
      have rx := evalLegendre_rec n x
      have ry := evalLegendre_rec n y
      have hn0 : (0 : ℝ) < (n : ℝ) + 2 := by positivity
      have hn1 : (0 : ℝ) < (n : ℝ) + 1 := by positivity
      have hn2 : (0 : ℝ) < 2 * (n : ℝ) + 3 := by positivity
      have e : ((n : ℝ) + 2) * (evalLegendre (n + 2) y * evalLegendre (n + 1) x - evalLegendre (n + 2) x * evalLegendre (n + 1) y)
          = (2 * n + 3) * (y - x) * (evalLegendre (n + 1) x * evalLegendre (n + 1) y) + (n + 1) * (evalLegendre (n + 1) y * evalLegendre n x - evalLegendre (n + 1) x * evalLegendre n y) := by
        linear_combination evalLegendre (n + 1) x * ry - evalLegendre (n + 1) y * rx
      have h1 : 0 < (2 * (n : ℝ) + 3) * (y - x) * (evalLegendre (n + 1) x * evalLegendre (n + 1) y) := by
        have := sub_pos.2 hxy
        positivity
      have h2 : 0 < ((n : ℝ) + 1) * (evalLegendre (n + 1) y * evalLegendre n x - evalLegendre (n + 1) x * evalLegendre n y) := mul_pos hn1 (by linarith)
      have h3 := pos_of_mul_pos_right (a := (n : ℝ) + 2) (b := evalLegendre (n + 2) y * evalLegendre (n + 1) x - evalLegendre (n + 2) x * evalLegendre (n + 1) y) (by rw [e]; linarith) hn0.le
      linarith
  obtain ⟨-, h⟩ := key N le_rfl
  rw [hzero, zero_mul] at h
  exact pos_of_mul_pos_left h (hpos N le_rfl).le

/-- A Gauss-Legendre rule whose nodes are zeros of the Legendre polynomial. -/
theorem gauss_nodes_zero {m : ℕ} {r : List ℝ × List ℝ} (hr : IsGaussLegendre m r) {i : ℕ} (hi : i < m) : evalLegendre m (r.1.getD i 0) = 0 := by
  classical
  obtain ⟨p, hp⟩ : ∃ p : Polynomial ℝ, p = ∏ j ∈ (Finset.range m).erase i, (Polynomial.X - Polynomial.C (r.1.getD j 0)) := ⟨_, rfl⟩
  have hdeg : p.natDegree = m - 1 := by
    rw [hp, Polynomial.natDegree_prod_of_monic _ _ fun j _ => Polynomial.monic_X_sub_C _]
    simp only [Polynomial.natDegree_X_sub_C, Finset.sum_const, smul_eq_mul, mul_one]
    rw [Finset.card_erase_of_mem (Finset.mem_range.2 hi), Finset.card_range]
  have hev : ∀ x, p.eval x = ∏ j ∈ (Finset.range m).erase i, (x - r.1.getD j 0) := by
    intro x; rw [hp, Polynomial.eval_prod]; simp
  have hz : ∀ j ∈ Finset.range m, j ≠ i → p.eval (r.1.getD j 0) = 0 := fun j hj hji => by
    rw [hev]; exact Finset.prod_eq_zero (Finset.mem_erase.2 ⟨hji, hj⟩) (by simp)
  have hp0 : p ≠ 0 := by rw [hp]; exact Finset.prod_ne_zero_iff.2 fun j _ => Polynomial.X_sub_C_ne_zero _
  have single : ∀ q : Polynomial ℝ, (q * p).natDegree ≤ 2 * m - 1 → r.2.getD i 0 * (q.eval (r.1.getD i 0) * p.eval (r.1.getD i 0)) = J (q * p) := by
    intro q hq
    have hex := hr.exact (q * p) hq
    rw [zipWith_sum _ _ _ (by rw [hr.nodes, hr.weights]), hr.nodes, Finset.sum_eq_single i] at hex
    · rw [Polynomial.eval_mul] at hex; exact hex
    · intro j hj hji
      rw [Polynomial.eval_mul, hz j hj hji, mul_zero, mul_zero]
    · intro h; exact absurd (Finset.mem_range.2 hi) h
  have hne : p.eval (r.1.getD i 0) ≠ 0 := by
    intro h0
    have h1 := single p (by
      refine Polynomial.natDegree_mul_le.trans ?_
      omega)
    rw [h0, mul_zero, mul_zero] at h1
    have := J_pos (p * p) (mul_ne_zero hp0 hp0) fun x _ => by rw [Polynomial.eval_mul]; exact mul_self_nonneg _
    exact this.ne h1
  have h2 := single (legPoly m) (by
    refine Polynomial.natDegree_mul_le.trans ?_
    have := natDegree_legPoly m
    omega)
  rw [J_leg_mul m p (by omega)] at h2
  have h3 := (mul_eq_zero.1 h2).resolve_left (gauss_weight_pos hr hi).ne'
  exact (mul_eq_zero.1 h3).resolve_right hne

/-- Turning the points of a rule that integrates the harmonics up to order `T` leaves it one. -/
theorem turned_sums {Q T : ℕ} (hT : 1 ≤ T) (t : ℝ × ℝ × ℝ) (azi zen azi' zen' w : Fin Q → ℝ) (hz : ∀ q, zen q ∈ Set.Icc 0 π) (hz' : ∀ q, zen' q ∈ Set.Icc 0 π)
    (hd : ∀ q, dirVec (azi' q) (zen' q) = (rotationEuler t.1 t.2.1 t.2.2).mulVec (dirVec (azi q) (zen q))) (s : ℝ)
    (h : ∀ k : Fin ((T + 1) ^ 2), ∑ q, w q * shVec T (azi q) (zen q) k = if (k : ℕ) = 0 then s else 0) (k : Fin ((T + 1) ^ 2)) :
    ∑ q, w q * shVec T (azi' q) (zen' q) k = if (k : ℕ) = 0 then s else 0 := by
  obtain ⟨E, hE⟩ : ∃ E, E = blockE (rotationEuler t.1 t.2.1 t.2.2) ((T + 1) ^ 2) (T + 1) := ⟨_, rfl⟩
  have hrot : ∀ q, E.mulVec (shVec T (azi q) (zen q)) = shVec T (azi' q) (zen' q) := fun q => by rw [hE]; exact blockE_shVec t (hz q) (hz' q) (hd q)
  have hcomm := blockE_orders (rotationEuler t.1 t.2.1 t.2.2) T (fun n => if n = 0 then 1 else 0)
  rw [← hE] at hcomm
  -- the part of order 0 stays
  have hD : ∀ a z : ℝ, (Matrix.diagonal (repVec T fun n => if n = 0 then 1 else 0)).mulVec (shVec T a z) = fun k : Fin ((T + 1) ^ 2) => if (k : ℕ) = 0 then 1 / √(4 * π) else 0 := by
    intro a z
    funext k
    rw [Matrix.mulVec_diagonal]
    show (if acnOrder k = 0 then (1 : ℝ) else 0) * realSH (acnOrder k) (acnDegree k) a z = _
    by_cases hk : (k : ℕ) = 0
    · have := (acn_zero_iff k).2 hk
      rw [if_pos this.1, if_pos hk, this.1, this.2, realSH_zero, one_mul]
    · rw [if_neg hk, if_neg, zero_mul]
      intro h0
      refine hk ((acn_zero_iff k).1 ⟨h0, ?_⟩)
      have := acnDegree_abs k
      rw [h0] at this
      simpa using this
  have hpi : (0 : ℝ) < √(4 * π) := by positivity
  by_cases hQ : Nonempty (Fin Q)
  · obtain ⟨q0⟩ := hQ
    have e0 : E.mulVec (fun k : Fin ((T + 1) ^ 2) => if (k : ℕ) = 0 then 1 / √(4 * π) else 0) = fun k : Fin ((T + 1) ^ 2) => if (k : ℕ) = 0 then 1 / √(4 * π) else 0 := by
      rw [← hD (azi q0) (zen q0), Matrix.mulVec_mulVec, ← hcomm, ← Matrix.mulVec_mulVec, hrot, hD, hD]
    have hsum : (fun k => ∑ q, w q * shVec T (azi' q) (zen' q) k) = E.mulVec (fun k => ∑ q, w q * shVec T (azi q) (zen q) k) := by
      funext k
      simp only [← hrot, Matrix.mulVec, dotProduct, Finset.mul_sum]
      rw [Finset.sum_comm]
      exact Finset.sum_congr rfl fun j _ => Finset.sum_congr rfl fun q _ => by ring
    have hs : (fun k : Fin ((T + 1) ^ 2) => if (k : ℕ) = 0 then s else 0) = (s * √(4 * π)) • fun k : Fin ((T + 1) ^ 2) => if (k : ℕ) = 0 then 1 / √(4 * π) else 0 := by
      funext k
      rw [Pi.smul_apply, smul_eq_mul]
      split_ifs
      · field_simp
      · simp
    rw [congrFun hsum k, show (fun k => ∑ q, w q * shVec T (azi q) (zen q) k) = fun k : Fin ((T + 1) ^ 2) => if (k : ℕ) = 0 then s else 0 from funext h, hs, Matrix.mulVec_smul, e0, ← hs]
  · have : IsEmpty (Fin Q) := not_nonempty_iff.1 hQ
    have := h k
    simp only [Finset.univ_eq_empty, Finset.sum_empty] at this ⊢
    exact this

/-- The sound field as a polynomial in the direction. -/
noncomputable def fieldPoly (N : ℕ) (F : Fin ((N + 1) ^ 2) → ℝ) : MvPolynomial (Fin 3) ℝ :=
  ∑ k : Fin ((N + 1) ^ 2), MvPolynomial.C (F k) * (MvPolynomial.C (√((2 * acnOrder k + 1) / (4 * π))) * harmPoly (acnOrder k) (acnDegree k))

theorem fieldPoly_degree (N : ℕ) (F : Fin ((N + 1) ^ 2) → ℝ) : (fieldPoly N F).totalDegree ≤ N := by
  unfold fieldPoly
  refine MvPolynomial.totalDegree_finsetSum_le fun k _ => ?_
  refine (totalDegree_mul _ _).trans ?_
  rw [totalDegree_C, zero_add]
  refine (totalDegree_mul _ _).trans ?_
  rw [totalDegree_C, zero_add]
  exact (totalDegree_harmPoly _ _).trans (Verif.Sph.acnOrder_le k.2)

theorem fieldPoly_eval {N : ℕ} (F : Fin ((N + 1) ^ 2) → ℝ) (a : ℝ) {z : ℝ} (hz : z ∈ Set.Icc 0 π) : eval (dirVec a z) (fieldPoly N F) = ∑ k, F k * shVec N a z k := by
  unfold fieldPoly
  rw [map_sum]
  refine Finset.sum_congr rfl fun k _ => ?_
  rw [map_mul, MvPolynomial.eval_C, ← sphPt_dirVec a hz, ← realSH_eval]
  rfl

/-- No pattern of order `N` has a longer energy vector, in any direction, than the largest zero of `P_(N+1)`. -/
theorem scene_bound {Q t N : ℕ} {azi zen : Fin Q → ℝ} (hd : IsTDesign t azi zen) (ht : 2 * N + 1 ≤ t) {x : ℝ} (hpos : ∀ n ≤ N, 0 < evalLegendre n x)
    (hzero : evalLegendre (N + 1) x = 0) (F : Fin ((N + 1) ^ 2) → ℝ) (a z : ℝ) :
    ∑ q, (∑ k, F k * shVec N (azi q) (zen q) k) ^ 2 * (dirVec a z ⬝ᵥ dirVec (azi q) (zen q)) ≤ x * ∑ q, (∑ k, F k * shVec N (azi q) (zen q) k) ^ 2 := by
  obtain ⟨p, hp⟩ : ∃ p : MvPolynomial (Fin 3) ℝ, p = fieldPoly N F ^ 2 * (MvPolynomial.C x - ∑ c, MvPolynomial.C (dirVec a z c) * MvPolynomial.X c) := ⟨_, rfl⟩
  have hdeg : p.totalDegree ≤ 2 * N + 1 := by
    rw [hp]
    refine (totalDegree_mul _ _).trans (Nat.add_le_add ?_ ?_)
    · exact (totalDegree_pow _ _).trans (Nat.mul_le_mul_left 2 (fieldPoly_degree N F))
    · refine (totalDegree_sub _ _).trans (max_le ?_ ?_)
      · rw [totalDegree_C]; exact Nat.zero_le _
      · refine MvPolynomial.totalDegree_finsetSum_le fun c _ => ?_
        refine (totalDegree_mul _ _).trans ?_
        rw [totalDegree_C, totalDegree_X]
  have hev : ∀ b : ℝ, ∀ y ∈ Set.Icc 0 π, eval (dirVec b y) p = (∑ k, F k * shVec N b y k) ^ 2 * (x - dirVec a z ⬝ᵥ dirVec b y) := by
    intro b y hy
    rw [hp, map_mul, map_pow, map_sub, map_sum, MvPolynomial.eval_C, fieldPoly_eval F b hy]
    simp only [map_mul, MvPolynomial.eval_C, MvPolynomial.eval_X]
    rfl
  -- the mean over the sphere, by a turned Gauss grid
  have hmean : 0 ≤ sphereMean fun b y => eval (dirVec b y) p := by
    obtain ⟨r, hr⟩ := exists_gaussLegendre (N + 1) (by omega)
    have hG := C27_gauss (fun _ => r) N hr
    obtain ⟨ga, hga⟩ := toFn (n := (N + 1) * (2 * N + 2)) _ hG.1
    obtain ⟨gz, hgz⟩ := toFn (n := (N + 1) * (2 * N + 2)) _ hG.2.1
    obtain ⟨gw, hgw⟩ := toFn (n := (N + 1) * (2 * N + 2)) _ hG.2.2.1
    have hgrid : gauss (fun _ => r) N = (List.ofFn ga, List.ofFn gz, List.ofFn gw) := by rw [← hga, ← hgz, ← hgw]
    have hgzi : ∀ q, gz q ∈ Set.Icc 0 π := fun q => by
      have := hG.2.2.2.2.2 (gz q) (by rw [hgz]; exact List.mem_ofFn.2 ⟨q, rfl⟩)
      exact ⟨this.1.le, this.2.le⟩
    have hwp : ∀ q, 0 < gw q := fun q => C152_gauss_positive (fun _ => r) N hr _ (by rw [hgw]; exact List.mem_ofFn.2 ⟨q, rfl⟩)
    have hnode : ∀ q, cos (gz q) ≤ x := by
      intro q
      have hm : gz q ∈ npRepeat (r.1.map arccos) (2 * N + 2) := by
        have : gz q ∈ (gauss (fun _ => r) N).2.1 := by rw [hgz]; exact List.mem_ofFn.2 ⟨q, rfl⟩
        exact this
      obtain ⟨y, hy, hyz⟩ := List.mem_map.1 (mem_npRepeat hm)
      have hin := hr.inside y hy
      rw [← hyz, Real.cos_arccos hin.1.le hin.2.le]
      obtain ⟨i, hi, rfl⟩ := List.getElem_of_mem hy
      have h0 := gauss_nodes_zero hr (i := i) (by rw [← hr.nodes]; exact hi)
      rw [List.getD_eq_getElem _ _ hi] at h0
      by_contra hc
      push Not at hc
      exact (legendre_beyond hpos hzero hc).ne' h0
    -- turned
    obtain ⟨R, hR⟩ : ∃ R, R = rotationEuler (-a) (-z) 0 := ⟨_, rfl⟩
    have hun : ∀ q, dirVec (dirOf (R.mulVec (dirVec (ga q) (gz q)))).1 (dirOf (R.mulVec (dirVec (ga q) (gz q)))).2 = R.mulVec (dirVec (ga q) (gz q)) := by
      intro q
      refine unit_dir ?_
      have h1 : R.mulVec (dirVec (ga q) (gz q)) ⬝ᵥ R.mulVec (dirVec (ga q) (gz q)) = 1 := by rw [hR, C04_dot, dir_self]
      rw [← h1]
      exact Finset.sum_congr rfl fun c _ => sq _
    have hsh : ∀ k : Fin ((2 * N + 1 + 1) ^ 2), ∑ q, gw q * shVec (2 * N + 1) (ga q) (gz q) k = if (k : ℕ) = 0 then 4 * π / √(4 * π) else 0 := by
      intro k
      have h1 := C80_gauss (fun _ => r) N hr ga gz gw hgrid (MvPolynomial.C (√((2 * acnOrder k + 1) / (4 * π))) * harmPoly (acnOrder k) (acnDegree k)) (by
        refine (totalDegree_mul _ _).trans ?_
        rw [totalDegree_C, zero_add]
        exact (totalDegree_harmPoly _ _).trans (Verif.Sph.acnOrder_le k.2))
      have h2 : ∀ b : ℝ, ∀ y ∈ Set.Icc 0 π, eval (dirVec b y) (MvPolynomial.C (√((2 * acnOrder k + 1) / (4 * π))) * harmPoly (acnOrder k) (acnDegree k)) = realSH (acnOrder k) (acnDegree k) b y := by
        intro b y hy
        rw [← sphPt_dirVec b hy, ← realSH_eval]
      have h3 : sphereMean (fun b y => realSH (acnOrder k) (acnDegree k) b y) = if acnOrder k = 0 ∧ acnDegree k = 0 then 1 / √(4 * π) else 0 := mean_sh _ _ (acnDegree_abs k)
      rw [← sphereMean_congr h2] at h3
      unfold sphereMean at h3
      rw [← h1, Finset.sum_congr rfl fun q _ => by rw [h2 _ _ (hgzi q)], div_eq_iff (by positivity)] at h3
      refine Eq.trans (b := _) h3 ?_
      by_cases hk : (k : ℕ) = 0
      · rw [if_pos ((acn_zero_iff k).2 hk), if_pos hk]; ring
      · rw [if_neg fun hh => hk ((acn_zero_iff k).1 hh), if_neg hk, zero_mul]
    have hturn := turned_sums (T := 2 * N + 1) (by omega) (-a, -z, 0) ga gz (fun q => (dirOf (R.mulVec (dirVec (ga q) (gz q)))).1) (fun q => (dirOf (R.mulVec (dirVec (ga q) (gz q)))).2) gw hgzi
      (fun q => dirOf_zenith _) (fun q => by rw [hun q, hR]) _ hsh
    have hquad := quad_of_sh (fun q => (dirOf (R.mulVec (dirVec (ga q) (gz q)))).1) (fun q => (dirOf (R.mulVec (dirVec (ga q) (gz q)))).2) gw (fun q => dirOf_zenith _) (2 * N + 1) (4 * π)
      (fun n m hm hn => by
        obtain ⟨k, rfl, rfl⟩ := acn_index (N := 2 * N + 1) hn hm
        refine Eq.trans (hturn k) ?_
        by_cases hk : (k : ℕ) = 0
        · rw [if_pos ((acn_zero_iff k).2 hk), if_pos hk]
        · rw [if_neg fun hh => hk ((acn_zero_iff k).1 hh), if_neg hk]) p hdeg
    have hnn : 0 ≤ 4 * π * sphereMean fun b y => eval (dirVec b y) p := by
      rw [← hquad]
      refine Finset.sum_nonneg fun q _ => mul_nonneg (hwp q).le ?_
      rw [hev _ _ (dirOf_zenith _), hun q]
      refine mul_nonneg (sq_nonneg _) ?_
      rw [pole_dir a z, ← hR, hR, C04_dot]
      have : dirVec 0 0 ⬝ᵥ dirVec (ga q) (gz q) = cos (gz q) := by simp [dirVec, dotProduct, Fin.sum_univ_three]
      rw [this]
      linarith [hnode q]
    exact nonneg_of_mul_nonneg_right (by simpa using hnn) (by positivity)
  have hex := hd.exact p (hdeg.trans ht)
  have hQ : (0 : ℝ) < Q := by exact_mod_cast hd.pos
  rw [← hex] at hmean
  have hs : 0 ≤ ∑ q, eval (dirVec (azi q) (zen q)) p := by
    have := mul_nonneg hmean hQ.le
    rwa [div_mul_cancel₀ _ hQ.ne'] at this
  rw [Finset.sum_congr rfl fun q _ => hev _ _ (hd.zenith q)] at hs
  simp only [mul_sub] at hs
  rw [Finset.sum_sub_distrib, ← Finset.sum_mul] at hs
  linarith

theorem energy_parts {L : ℕ} {dirs : Fin L → Vec3} {x : Fin L → ℝ} {u : Vec3} {e : ℝ} (h : rE dirs x = (some u, e)) :
    0 < ∑ l, x l ^ 2 ∧ ∑ l, x l ^ 2 • dirs l = (∑ l, x l ^ 2) • u := by
  unfold rE at h
  have h1 := (Prod.mk.inj h).1
  by_cases h0 : ∑ q, x q ^ 2 = 0
  · simp [h0] at h1
  · simp only [if_neg h0, Option.some.injEq] at h1
    refine ⟨lt_of_le_of_ne (Finset.sum_nonneg fun _ _ => sq_nonneg _) (Ne.symm h0), ?_⟩
    funext c
    have := congrFun h1 c
    simp only [Finset.sum_apply, Pi.smul_apply, smul_eq_mul]
    rw [← this]
    field_simp

/-- **C174** Loudspeakers that form a design of strength `2N+1`: whatever sound field is decoded by `sad`, `mad` or `epad` at order `N` - any number of sources, diffuse or filtered, at any sample -, the energy vector of the loudspeaker signals is never longer than the largest zero of the
Legendre polynomial `P_(N+1)`; one source with the channels of order `n` weighted by `P_n` of that zero has an energy vector of exactly that length, towards the source. -/
theorem C174_scene {L S N t : ℕ} (lstsq : Mat3 → Mat3) (pinv : {m n : ℕ} → Matrix (Fin m) (Fin n) ℝ → Matrix (Fin n) (Fin m) ℝ)
    (hpinv : ∀ {m n : ℕ} (A : Matrix (Fin m) (Fin n) ℝ), IsPinv A (pinv A)) (svd : {m n : ℕ} → Matrix (Fin m) (Fin n) ℝ → Matrix (Fin m) (Fin m) ℝ × Matrix (Fin n) (Fin n) ℝ)
    (hsvd : ∀ {m n : ℕ} (A : Matrix (Fin m) (Fin n) ℝ), IsSvd A (svd A).1 (svd A).2) (h : Hull L) (hu : ∀ l, ∑ c, h.points l c ^ 2 = 1)
    (hd : IsTDesign t (fun l => (dirOf (h.points l)).1) (fun l => (dirOf (h.points l)).2)) (ht : 2 * N + 1 ≤ t) :
    ∃ x : ℝ, 0 ≤ x ∧ x < 1 ∧ evalLegendre (N + 1) x = 0 ∧ (∀ y, evalLegendre (N + 1) y = 0 → y ≤ x) ∧
      (∀ (K : ℕ) (F : Matrix (Fin K) (Fin S) ℝ), (N + 1) ^ 2 ≤ K → ∃ o, sad lstsq F h (some N) = .ok o ∧ mad lstsq pinv F h (some N) = .ok o ∧ epad lstsq svd F h (some N) = .ok o ∧
        ∀ s, (rE h.points fun l => o l s).2 ≤ x) ∧
      ∀ (sig : Fin S → ℝ) (azi zen : ℝ), zen ∈ Set.Icc 0 π → ∃ o, sad lstsq (weightedSource N (fun n => evalLegendre n x) sig azi zen) h (some N) = .ok o ∧
        ∀ s, sig s ≠ 0 → rE h.points (fun l => o l s) = (some fun c => x * dirVec azi zen c, x) := by
  obtain ⟨x, hx, hpos, hzero⟩ := C110_optimum_exists N
  refine ⟨x, hx.1, hx.2, hzero, fun y hy => ?_, fun K F hK => ?_, fun sig azi zen hz => ?_⟩
  · by_contra hc
    push Not at hc
    exact (legendre_beyond hpos hzero hc).ne' hy
  · have hL : (0 : ℝ) < L := by exact_mod_cast hd.pos
    have hsad := sad_eq lstsq F h (some N) N rfl
    rw [applyTruncated_ok _ _ hK, smul_smul] at hsad
    have hmad := C43_sad_eq_mad lstsq pinv hpinv F h (some N) N rfl hd (by omega)
    have hep := epad_eq_sad_design lstsq svd hsvd F h hd (by omega) (some N) rfl
    refine ⟨_, hsad, hmad.symm.trans hsad, hep.trans hsad, fun s => ?_⟩
    obtain ⟨k, hk⟩ : ∃ k : ℝ, k = √(4 * π / L) * √(4 * π / ((N : ℝ) + 1) ^ 2) := ⟨_, rfl⟩
    have hk0 : k ≠ 0 := by rw [hk]; have := pi_pos; positivity
    rw [← hk]
    have hg : ∀ l, ((k • shAt N h.points) * F.submatrix (Fin.castLE hK) id) l s = k * ∑ q, F (Fin.castLE hK q) s * shVec N (dirOf (h.points l)).1 (dirOf (h.points l)).2 q := by
      intro l
      rw [Matrix.mul_apply, Finset.mul_sum]
      refine Finset.sum_congr rfl fun q _ => ?_
      rw [Matrix.smul_apply, Matrix.submatrix_apply, smul_eq_mul]
      show k * shVec N _ _ q * _ = _
      rw [id]
      ring
    simp only [hg]
    rw [C26_scale _ _ _ hk0]
    obtain ⟨g, hgd⟩ : ∃ g : Fin L → ℝ, g = fun l => ∑ q, F (Fin.castLE hK q) s * shVec N (dirOf (h.points l)).1 (dirOf (h.points l)).2 q := ⟨_, rfl⟩
    rw [← hgd]
    cases hr : rE h.points g with
    | mk v e =>
    cases v with
    | none =>
      have : e = 0 := by
        unfold rE at hr
        obtain ⟨h1, h2⟩ := Prod.mk.inj hr
        rw [h1] at h2
        exact h2.symm
      show e ≤ x
      rw [this]; exact hx.1
    | some v =>
      obtain ⟨hE, hV⟩ := energy_parts hr
      have he : e = norm3 v := by
        unfold rE at hr
        obtain ⟨h1, h2⟩ := Prod.mk.inj hr
        rw [h1] at h2
        rw [← h2]
        show √(∑ c, v c ^ 2) = √(v ⬝ᵥ v)
        congr 1
        exact Finset.sum_congr rfl fun c _ => sq (v c)
      show e ≤ x
      rw [he]
      by_cases hv0 : v = 0
      · rw [hv0]; simpa [norm3] using hx.1
      · have hb := scene_bound hd ht hpos hzero (fun q => F (Fin.castLE hK q) s) (dirOf v).1 (dirOf v).2
        have hgl : ∀ l, ∑ q, F (Fin.castLE hK q) s * shVec N (dirOf (h.points l)).1 (dirOf (h.points l)).2 q = g l := fun l => by rw [hgd]
        simp only [hgl, unit_dir (hu _)] at hb
        have hsum : ∑ l, g l ^ 2 * (dirVec (dirOf v).1 (dirOf v).2 ⬝ᵥ h.points l) = (∑ l, g l ^ 2) * norm3 v := by
          have h1 : ∑ l, g l ^ 2 * (dirVec (dirOf v).1 (dirOf v).2 ⬝ᵥ h.points l) = dirVec (dirOf v).1 (dirOf v).2 ⬝ᵥ ∑ l, g l ^ 2 • h.points l := by
            rw [dotProduct_sum]
            exact Finset.sum_congr rfl fun l _ => by rw [dotProduct_smul, smul_eq_mul]
          rw [h1, hV, dotProduct_smul, smul_eq_mul, dirVec_dirOf v hv0]
          congr 1
          have hn : 0 < norm3 v := norm3_pos hv0
          have h2 : norm3 v * norm3 v = v ⬝ᵥ v := by unfold norm3; exact Real.mul_self_sqrt (Finset.sum_nonneg fun c _ => mul_self_nonneg _)
          have h3 : (fun c => v c / norm3 v) ⬝ᵥ v = (v ⬝ᵥ v) / norm3 v := by
            simp only [dotProduct, Finset.sum_div]
            exact Finset.sum_congr rfl fun c _ => by ring
          rw [h3, ← h2]
          field_simp
        rw [hsum, mul_comm] at hb
        exact le_of_mul_le_mul_right hb hE
  · have h0 : (fun n => evalLegendre n x) 0 ≠ 0 := by simp [evalLegendre_zero]
    obtain ⟨o, _, _, h1, -, -, h2⟩ := C112_weighted lstsq pinv hpinv svd hsvd h hu hd ht (fun n => evalLegendre n x) 0 (Nat.zero_le _) h0 sig azi zen hz
    refine ⟨o, h1, fun s hs => ?_⟩
    have hden := rEDen_pos N (fun n => evalLegendre n x) 0 (Nat.zero_le _) h0
    rw [h2 s hs o (by simp), (C110_optimal N x hpos hzero).2, mul_div_cancel_right₀ _ hden.ne', abs_of_nonneg hx.1]

/-- The corners of a cube at first order: no sound field has a longer energy vector than the zero of `P_2`, which is below one. -/
example (svd : {m n : ℕ} → Matrix (Fin m) (Fin n) ℝ → Matrix (Fin m) (Fin m) ℝ × Matrix (Fin n) (Fin n) ℝ)
    (hsvd : ∀ {m n : ℕ} (A : Matrix (Fin m) (Fin n) ℝ), IsSvd A (svd A).1 (svd A).2) :
    ∃ (h : Hull 8) (x : ℝ), x ^ 2 = 1 / 3 ∧ 0 ≤ x ∧ ∀ F : Matrix (Fin 4) (Fin 1) ℝ, ∃ o, epad id svd F h (some 1) = .ok o ∧ (rE h.points fun l => o l 0).2 ≤ x := by
  obtain ⟨azi, zen, hd⟩ := cube_design
  choose P hP using fun (m n : ℕ) (A : Matrix (Fin m) (Fin n) ℝ) => exists_pinv A
  obtain ⟨h, hh⟩ : ∃ h : Hull 8, h.points = fun l => dirVec (azi l) (zen l) :=
    ⟨{ points := fun l => dirVec (azi l) (zen l), listener := 0, d := 1, a := 1, simplices := [], centroids := [], faceAreas := [], faceNormals := [], barycenter := 0, encloses := [], valid := [], invBase := none, charOrder := none }, rfl⟩
  obtain ⟨x, h1, -, h2, -, h3, -⟩ := C174_scene (N := 1) (S := 1) (t := 3) id (fun {m n} A => P m n A) (fun A => hP _ _ A) svd hsvd h (fun l => by
    rw [hh]
    have := dir_self (azi l) (zen l)
    rw [← this]; exact Finset.sum_congr rfl fun c _ => sq _) (by rw [hh]; exact design_points hd) (by norm_num)
  refine ⟨h, x, ?_, h1, fun F => ?_⟩
  · have := evalLegendre_rec 0 x
    rw [evalLegendre_zero, evalLegendre_one'] at this
    rw [show (0 : ℕ) + 2 = 1 + 1 from rfl, h2] at this
    norm_num at this
    linarith
  · obtain ⟨o, -, -, e1, e2⟩ := h3 4 F (by norm_num)
    exact ⟨o, e1, e2 0⟩

end Verif.Props
