import Verif.Proofs.Legendre
import Verif.Proofs.SphRot2

/-!
Addition theorem from the rotation theorem: rotate one of the two directions to the z axis.
-/

namespace Verif.Sph
open Real Verif.Solid

/-! ### Sums over ACN channels -/

theorem sum_degree {M : Type*} [AddCommMonoid M] (n : ℕ) (f : ℤ → M) :
    ∑ k ∈ Finset.range (2 * n + 1), f ((k : ℤ) - n) = ∑ m ∈ I n, f m := by
  refine Finset.sum_nbij' (fun k => (k : ℤ) - n) (fun m => (m + n).toNat) ?_ ?_ ?_ ?_ ?_
  · intro k hk; rw [Finset.mem_range] at hk; rw [Finset.mem_Icc]; omega
  · intro m hm; rw [Finset.mem_Icc] at hm; rw [Finset.mem_range]; omega
  · intro k hk; simp
  · intro m hm; rw [Finset.mem_Icc] at hm; omega
  · intro k hk; rfl

theorem sum_acn_range {M : Type*} [AddCommMonoid M] (f : ℕ → ℤ → M) : ∀ N : ℕ,
    ∑ q ∈ Finset.range ((N + 1) ^ 2), f (acnOrder q) (acnDegree q)
      = ∑ n ∈ Finset.range (N + 1), ∑ m ∈ I n, f n m := by
  have key : ∀ N : ℕ, ∑ q ∈ Finset.range (N ^ 2), f (acnOrder q) (acnDegree q)
      = ∑ n ∈ Finset.range N, ∑ m ∈ I n, f n m := by
    intro N
    induction N with
    | zero => simp
    | succ N ih =>
      rw [show (N + 1) ^ 2 = N ^ 2 + (2 * N + 1) by ring, Finset.sum_range_add, ih, Finset.sum_range_succ _ N]
      congr 1
      rw [← sum_degree]
      refine Finset.sum_congr rfl fun k hk => ?_
      rw [Finset.mem_range] at hk
      rw [acnOrder_eq (by omega), acnDegree_eq (by omega)]
  exact fun N => key (N + 1)

theorem sum_acn {M : Type*} [AddCommMonoid M] (N : ℕ) (f : ℕ → ℤ → M) :
    ∑ q : Fin ((N + 1) ^ 2), f (acnOrder q) (acnDegree q) = ∑ n ∈ Finset.range (N + 1), ∑ m ∈ I n, f n m := by
  rw [← sum_acn_range, Finset.sum_range]

theorem acnDegree_abs (q : ℕ) : |acnDegree q| ≤ (acnOrder q : ℤ) := by
  obtain ⟨n, k, hk, rfl, ho⟩ := acn_decomp q
  rw [ho, acnDegree_eq hk, abs_le]; omega

theorem acn_ext {q q' : ℕ} (h1 : acnOrder q = acnOrder q') (h2 : acnDegree q = acnDegree q') : q = q' := by
  obtain ⟨n, k, hk, rfl, ho⟩ := acn_decomp q
  obtain ⟨n', k', hk', rfl, ho'⟩ := acn_decomp q'
  rw [ho, ho'] at h1
  subst h1
  rw [acnDegree_eq hk, acnDegree_eq hk'] at h2
  omega

/-! ### Column orthogonality -/

theorem rot_orth_col {r : Matrix (Fin 3) (Fin 3) ℝ} {R : ℕ → ℤ → ℤ → ℝ} (hr : r * r.transpose = 1)
    (hR : RotRec r R) (l : ℕ) (hl : 1 ≤ l) (n : ℤ) (hn : n ∈ I l) (n' : ℤ) (hn' : n' ∈ I l) :
    ∑ m ∈ I l, R l m n * R l m n' = if n = n' then 1 else 0 := by
  obtain ⟨k, rfl⟩ : ∃ k, l = k + 1 := ⟨l - 1, by omega⟩
  let A : Matrix (I (k + 1)) (I (k + 1)) ℝ := fun a b => R (k + 1) a b
  have h : A * A.transpose = 1 := by
    ext a b
    rw [Matrix.mul_apply, Matrix.one_apply]
    have := rot_orth hr hR k a a.2 b b.2
    rw [← Finset.sum_coe_sort] at this
    simp only [A, Subtype.ext_iff]
    exact this
  have h' := mul_eq_one_comm.1 h
  have h2 := congrFun (congrFun h' ⟨n, hn⟩) ⟨n', hn'⟩
  rw [Matrix.mul_apply, Matrix.one_apply] at h2
  rw [← Finset.sum_coe_sort]
  simp only [A, Subtype.mk.injEq] at h2
  exact h2

theorem harm_order_zero {A : Type*} [CommRing A] [Algebra ℝ A] (x y z : A) : harm x y z 0 0 = 1 := by
  rw [harm_zero, Cc, T_self]; simp [cs, kap]

theorem harm_pole (l : ℕ) (m : ℤ) : harm (0 : ℝ) 0 1 l m = if m = 0 then 1 else 0 := by
  have hcs : ∀ k, (cs (0 : ℝ) 0 (k + 1)) = (0, 0) := fun k => by simp [cs]
  have hT : T (1 : ℝ) (W 0 0) l 0 = ((l.factorial : ℕ) : ℝ)⁻¹ := by
    unfold T
    rw [Finset.sum_eq_single 0]
    · have := term_add (1 : ℝ) (W 0 0) 0 0 l
      simp only [mul_zero, add_zero, zero_add] at this
      rw [this]; simp
    · intro k _ hk
      obtain ⟨j, rfl⟩ : ∃ j, k = j + 1 := ⟨k - 1, by omega⟩
      unfold term
      split_ifs
      · simp [W]
      · rfl
    · intro h; simp at h
  obtain rfl | ⟨k, rfl⟩ | ⟨k, rfl⟩ : m = 0 ∨ (∃ k : ℕ, m = (k : ℤ) + 1) ∨ ∃ k : ℕ, m = -((k : ℤ) + 1) := by
    rcases lt_trichotomy m 0 with h | h | h
    · exact Or.inr (Or.inr ⟨(-m - 1).toNat, by omega⟩)
    · exact Or.inl h
    · exact Or.inr (Or.inl ⟨(m - 1).toNat, by omega⟩)
  · rw [harm_zero, Cc, hT]
    simp only [cs, if_true, kap, smul_eq_mul, pow_zero, inv_one, one_mul]
    have : ((((l - 0).factorial * (l + 0).factorial : ℕ)) : ℝ) = (l.factorial : ℝ) ^ 2 := by
      rw [Nat.sub_zero, Nat.add_zero]; push_cast; ring
    rw [this, Real.sqrt_sq (by positivity), mul_inv_cancel₀ (by positivity)]
  · rw [harm_pos, Cc, hcs, if_neg (by omega)]; simp
  · rw [harm_neg, Ss, hcs, if_neg (by omega)]; simp

theorem harm_zonal (x y z : ℝ) (h : x ^ 2 + y ^ 2 + z ^ 2 = 1) (l : ℕ) : harm x y z l 0 = evalLegendre l z := by
  have ha := assocLegendre_eq l 0 z
  rw [assocLegendre] at ha
  simp only [pow_zero, one_mul, Function.iterate_zero, id_eq, div_one, Nat.add_zero] at ha
  rw [evalLegendre, ha, harm_zero, Cc, W]
  simp only [cs, pow_zero, inv_one, one_mul, smul_eq_mul, kap]
  have : ((((l - 0).factorial * (l + 0).factorial : ℕ)) : ℝ) = (l.factorial : ℝ) ^ 2 := by
    rw [Nat.sub_zero, Nat.add_zero]; push_cast; ring
  rw [this, Real.sqrt_sq (by positivity), show x ^ 2 + y ^ 2 = 1 - z ^ 2 by linarith]

/-- Rotation taking the direction `(sin θ cos φ, sin θ sin φ, cos θ)` to the z axis; `c = cos θ`, `s = sin θ`. -/
noncomputable def toPole (cφ sφ c s : ℝ) : Matrix (Fin 3) (Fin 3) ℝ :=
  !![cφ * c, sφ * c, -s; -sφ, cφ, 0; cφ * s, sφ * s, c]

theorem toPole_orth (cφ sφ c s : ℝ) (h1 : cφ ^ 2 + sφ ^ 2 = 1) (h2 : c ^ 2 + s ^ 2 = 1) :
    toPole cφ sφ c s * (toPole cφ sφ c s).transpose = 1 := by
  ext i j
  fin_cases i <;> fin_cases j <;> simp [toPole, Matrix.mul_apply, Fin.sum_univ_three]
  · linear_combination c ^ 2 * h1 + h2
  · ring
  · linear_combination c * s * h1
  · ring
  · linear_combination h1
  · ring
  · linear_combination c * s * h1
  · ring
  · linear_combination s ^ 2 * h1 + h2

/-- Addition theorem for the normalised solid harmonics on the unit sphere. -/
theorem harm_addition (l : ℕ) (x y z φ c s : ℝ) (hv : x ^ 2 + y ^ 2 + z ^ 2 = 1) (h2 : c ^ 2 + s ^ 2 = 1) :
    ∑ m ∈ I l, harm x y z l m * harm (cos φ * s) (sin φ * s) c l m
      = evalLegendre l (x * (cos φ * s) + y * (sin φ * s) + z * c) := by
  rcases Nat.eq_zero_or_pos l with rfl | hl
  · have hI : I 0 = {0} := by ext a; simp only [Finset.mem_Icc, Finset.mem_singleton]; omega
    rw [hI, Finset.sum_singleton, harm_order_zero, harm_order_zero, evalLegendre, legPoly]; simp
  have h1 : cos φ ^ 2 + sin φ ^ 2 = 1 := by rw [add_comm]; exact sin_sq_add_cos_sq φ
  set r := toPole (cos φ) (sin φ) c s with hrdef
  have hr : r * r.transpose = 1 := toPole_orth _ _ _ _ h1 h2
  have hR := rotRec_Rc r
  set v : Fin 3 → ℝ := ![x, y, z] with hvdef
  set v' : Fin 3 → ℝ := ![cos φ * s, sin φ * s, c] with hvdef'
  have hrv' : r.mulVec v' = ![0, 0, 1] := by
    ext i
    fin_cases i <;> simp [hrdef, hvdef', toPole, Matrix.mulVec, dotProduct, Fin.sum_univ_three]
    · linear_combination c * s * h1
    · ring
    · linear_combination s ^ 2 * h1 + h2
  have hrvz : r.mulVec v 2 = x * (cos φ * s) + y * (sin φ * s) + z * c := by
    simp [hrdef, hvdef, toPole, Matrix.mulVec, dotProduct, Fin.sum_univ_three]; ring
  have hrn : (r.mulVec v 0) ^ 2 + (r.mulVec v 1) ^ 2 + (r.mulVec v 2) ^ 2 = 1 := by
    rw [← hv]
    simp [hrdef, hvdef, toPole, Matrix.mulVec, dotProduct, Fin.sum_univ_three]
    linear_combination (z ^ 2 + (cos φ * x + sin φ * y) ^ 2) * h2 + (x ^ 2 + y ^ 2) * h1
  have p1 := fun m hm => rot_point hr hR l hl m hm v
  have p2 := fun m hm => rot_point hr hR l hl m hm v'
  have lhs : ∑ m ∈ I l, harm (r.mulVec v 0) (r.mulVec v 1) (r.mulVec v 2) l m
      * harm (r.mulVec v' 0) (r.mulVec v' 1) (r.mulVec v' 2) l m
      = ∑ n ∈ I l, harm (v 0) (v 1) (v 2) l n * harm (v' 0) (v' 1) (v' 2) l n := by
    have e : ∀ m ∈ I l, harm (r.mulVec v 0) (r.mulVec v 1) (r.mulVec v 2) l m
        * harm (r.mulVec v' 0) (r.mulVec v' 1) (r.mulVec v' 2) l m
        = ∑ n ∈ I l, ∑ n' ∈ I l, (Rc r l m n * Rc r l m n')
          * (harm (v 0) (v 1) (v 2) l n * harm (v' 0) (v' 1) (v' 2) l n') := by
      intro m hm
      rw [p1 m hm, p2 m hm, Finset.sum_mul_sum]
      refine Finset.sum_congr rfl fun n _ => Finset.sum_congr rfl fun n' _ => by ring
    rw [Finset.sum_congr rfl e, Finset.sum_comm]
    refine Finset.sum_congr rfl fun n hn => ?_
    rw [Finset.sum_comm]
    have e2 : ∀ n' ∈ I l, ∑ m ∈ I l, (Rc r l m n * Rc r l m n')
          * (harm (v 0) (v 1) (v 2) l n * harm (v' 0) (v' 1) (v' 2) l n')
        = if n = n' then harm (v 0) (v 1) (v 2) l n * harm (v' 0) (v' 1) (v' 2) l n' else 0 := by
      intro n' hn'
      rw [← Finset.sum_mul, rot_orth_col hr hR l hl n hn n' hn']
      split_ifs <;> simp
    rw [Finset.sum_congr rfl e2, Finset.sum_ite_eq, if_pos hn]
  have e0 : ∑ m ∈ I l, harm (r.mulVec v 0) (r.mulVec v 1) (r.mulVec v 2) l m
      * harm (r.mulVec v' 0) (r.mulVec v' 1) (r.mulVec v' 2) l m
      = harm (r.mulVec v 0) (r.mulVec v 1) (r.mulVec v 2) l 0 := by
    rw [hrv']
    have : ∀ m, harm (![(0 : ℝ), 0, 1] 0) (![(0 : ℝ), 0, 1] 1) (![(0 : ℝ), 0, 1] 2) l m = if m = 0 then 1 else 0 :=
      fun m => harm_pole l m
    simp only [this, mul_ite, mul_one, mul_zero]
    rw [Finset.sum_ite_eq', if_pos (by rw [Finset.mem_Icc]; omega)]
  rw [e0, harm_zonal _ _ _ hrn, hrvz] at lhs
  exact lhs.symm

theorem evalLegendre_one : ∀ n : ℕ, evalLegendre n 1 = 1 := by
  intro n
  induction n using Nat.twoStepInduction with
  | zero => simp [evalLegendre, legPoly]
  | one => simp [evalLegendre, legPoly]
  | more n h1 h2 =>
    unfold evalLegendre at *
    rw [legPoly]
    simp only [Polynomial.eval_mul, Polynomial.eval_sub, Polynomial.eval_C, Polynomial.eval_X, h1, h2]
    field_simp; ring

end Verif.Sph
