import Verif.Proofs.SolidRot2

/-!
The rotation theorem: matrices with the row recursion represent the substitution of rotated coordinates.
-/

namespace Verif.Solid
open Finset Nat Real MvPolynomial

/-- Degree belonging to a Cartesian axis at order one. -/
def idx : Fin 3 → ℤ := ![1, -1, 0]

/-- The row recursion (order `l` to order `l + 1`, `l ≥ 1`). -/
structure RotRec (r : Matrix (Fin 3) (Fin 3) ℝ) (R : ℕ → ℤ → ℤ → ℝ) : Prop where
  one : ∀ i j, R 1 (idx i) (idx j) = r i j
  mid : ∀ l, 1 ≤ l → ∀ m ∈ I (l + 1), ∀ n ∈ I l,
    R (l + 1) m n * rowU (l + 1) n = rowComb (l + 1) m (fun i a => r i 2 * R l a n)
  top : ∀ l, 1 ≤ l → ∀ m ∈ I (l + 1),
    R (l + 1) m ((l : ℤ) + 1) * √((2 * (l : ℝ) + 1) * (2 * (l : ℝ) + 2))
      = rowComb (l + 1) m (fun i a => r i 0 * R l a l - r i 1 * R l a (-l))
  bot : ∀ l, 1 ≤ l → ∀ m ∈ I (l + 1),
    R (l + 1) m (-((l : ℤ) + 1)) * √((2 * (l : ℝ) + 1) * (2 * (l : ℝ) + 2))
      = rowComb (l + 1) m (fun i a => r i 0 * R l a (-l) + r i 1 * R l a l)

theorem fh_one (j : Fin 3) : fh 1 (idx j) = X j := by
  have h2 : √2 * √2 = (2 : ℝ) := two_sqrt_two
  have h0 : T (X 2 : Pol) (W (X 0) (X 1)) 1 0 = X 2 := by
    simp [T, term, Finset.sum_range_succ]
  fin_cases j
  · have := harm_pos (X 0 : Pol) (X 1) (X 2) 0 0
    simp only [Nat.cast_zero, zero_add] at this
    show harm (X 0 : Pol) (X 1) (X 2) 1 1 = X 0
    have := harm_pos (X 0 : Pol) (X 1) (X 2) 1 0
    simp only [Nat.cast_zero, zero_add] at this
    rw [this, Cc, T_self]
    simp only [cs, kap]
    norm_num [smul_smul]
  · show harm (X 0 : Pol) (X 1) (X 2) 1 (-1) = X 1
    have := harm_neg (X 0 : Pol) (X 1) (X 2) 1 0
    simp only [Nat.cast_zero, zero_add] at this
    rw [this, Ss, T_self]
    simp only [cs, kap]
    norm_num [smul_smul]
  · show harm (X 0 : Pol) (X 1) (X 2) 1 0 = X 2
    rw [harm_zero, Cc, h0]
    simp [cs, kap]

section hom
variable {A B : Type*} [CommRing A] [Algebra ℝ A] [CommRing B] [Algebra ℝ B] (f : A →ₐ[ℝ] B)

theorem map_T (z w : A) (l m : ℕ) : f (T z w l m) = T (f z) (f w) l m := by
  unfold T term
  rw [map_sum]
  refine Finset.sum_congr rfl fun k _ => ?_
  split_ifs <;> simp

theorem map_cs (x y : A) : ∀ m : ℕ, f (cs x y m).1 = (cs (f x) (f y) m).1 ∧ f (cs x y m).2 = (cs (f x) (f y) m).2
  | 0 => by simp [cs]
  | m + 1 => by
    obtain ⟨h1, h2⟩ := map_cs x y m
    simp [cs, h1, h2]

theorem map_harm (x y z : A) (l : ℕ) (m : ℤ) : f (harm x y z l m) = harm (f x) (f y) (f z) l m := by
  have hW : f (W x y) = W (f x) (f y) := by simp [W]
  unfold harm
  split_ifs <;> simp [Cc, Ss, map_T, map_cs, hW]

theorem harm_origin (l : ℕ) (m : ℤ) : harm (0 : A) 0 0 (l + 1) m = 0 := by
  have hc : ∀ k : ℕ, cs (0 : A) 0 (k + 1) = (0, 0) := by intro k; simp [cs]
  have hT : T (0 : A) (W (0 : A) 0) (l + 1) 0 = 0 := by
    unfold T term
    refine Finset.sum_eq_zero fun k _ => ?_
    split_ifs with h
    · rcases Nat.eq_zero_or_pos k with rfl | hk
      · simp
      · simp [W, hk.ne']
    · rfl
  unfold harm
  split_ifs with h0 h1
  · simp [Cc, cs, hT]
  · obtain ⟨k, hk⟩ : ∃ k, m.natAbs = k + 1 := ⟨m.natAbs - 1, by omega⟩
    simp [Cc, hk, hc]
  · obtain ⟨k, hk⟩ : ∃ k, m.natAbs = k + 1 := ⟨m.natAbs - 1, by omega⟩
    simp [Ss, hk, hc]

end hom

theorem aeval_fh {A : Type*} [CommRing A] [Algebra ℝ A] (v : Fin 3 → A) (l : ℕ) (m : ℤ) :
    aeval v (fh l m) = harm (v 0) (v 1) (v 2) l m := by
  unfold fh; rw [map_harm]; simp

theorem constantCoeff_eq (p : Pol) : constantCoeff p = aeval (fun _ => (0 : ℝ)) p := by
  rw [aeval_zero']; rfl

section step
variable {r : Matrix (Fin 3) (Fin 3) ℝ} {R : ℕ → ℤ → ℤ → ℝ}

theorem pderiv_sub_fh (l : ℕ) (m : ℤ) (j : Fin 3) :
    pderiv j (sub r (fh (l + 1) m)) = rowComb (l + 1) m (fun i a => r i j • sub r (fh l a)) := by
  rw [pderiv_sub]
  have h : ∀ i, r i j • sub r (pderiv i (fh (l + 1) m))
      = rowComb (l + 1) m (fun i' a => if i' = i then r i j • sub r (fh l a) else 0) := by
    intro i
    rw [fh, D_harm]
    have e := rowComb_map ((r i j) • (sub r).toLinearMap) (l + 1) m
      (fun i' a => (pderiv i) (![X 0, X 1, X 2] i' : Pol) * harm (X 0) (X 1) (X 2) l a)
    simp only [LinearMap.smul_apply, AlgHom.toLinearMap_apply] at e
    rw [e]
    congr 1
    funext i' a
    have hX : (![X 0, X 1, X 2] i' : Pol) = X i' := by fin_cases i' <;> rfl
    rw [hX, pderiv_X]
    split_ifs with hi
    · subst hi; simp [fh]
    · rw [Pi.single_eq_of_ne hi]; simp
  simp only [h]
  rw [← rowComb_sum]
  congr 1
  funext i a
  simp

theorem rot_step (hr : r * r.transpose = 1) (hR : RotRec r R) (k : ℕ)
    (ih : ∀ a ∈ I (k + 1), sub r (fh (k + 1) a) = ∑ ν ∈ I (k + 1), R (k + 1) a ν • fh (k + 1) ν) :
    ∀ m ∈ I (k + 2), sub r (fh (k + 2) m) = ∑ n ∈ I (k + 2), R (k + 2) m n • fh (k + 2) n := by
  intro m hm
  set l := k + 1 with hl
  have hl1 : 1 ≤ l := by omega
  have hk2 : k + 2 = l + 1 := by omega
  rw [hk2] at hm ⊢
  have hmabs : |m| ≤ (l : ℤ) + 1 := by have := mem_I.1 hm; push_cast at this; exact this
  rw [← sub_eq_zero]
  set F := sub r (fh (l + 1) m) - ∑ n ∈ I (l + 1), R (l + 1) m n • fh (l + 1) n with hF
  let B : Fin 3 → ℤ → ℝ := fun j ν => rowComb (l + 1) m (fun i a => r i j * R l a ν)
  let c : Fin 3 → ℤ → ℝ := fun j ν => B j ν - ∑ n ∈ I (l + 1), R (l + 1) m n * G l j n ν
  have hd : ∀ j, pderiv j F = ∑ ν ∈ I l, c j ν • fh l ν := by
    intro j
    rw [hF, map_sub, pderiv_sub_fh, map_sum]
    have h1 : rowComb (l + 1) m (fun i a => r i j • sub r (fh l a)) = ∑ ν ∈ I l, B j ν • fh l ν := by
      rw [rowComb_congr (Q' := fun i a => ∑ ν ∈ I l, (r i j * R l a ν) • fh l ν) hmabs]
      · rw [rowComb_sum]
        exact Finset.sum_congr rfl fun ν _ => by rw [rowComb_smul_right]
      · intro i a ha
        rw [ih a (mem_I.2 ha), Finset.smul_sum]
        exact Finset.sum_congr rfl fun ν _ => by rw [smul_smul]
    rw [h1]
    have h2 : ∑ n ∈ I (l + 1), pderiv j (R (l + 1) m n • fh (l + 1) n)
        = ∑ ν ∈ I l, (∑ n ∈ I (l + 1), R (l + 1) m n * G l j n ν) • fh l ν := by
      simp only [Derivation.map_smul, pderiv_fh, Finset.smul_sum, smul_smul, Finset.sum_smul]
      rw [Finset.sum_comm]
    rw [h2, ← Finset.sum_sub_distrib]
    exact Finset.sum_congr rfl fun ν _ => by rw [← sub_smul]
  have hc2 : ∀ ν ∈ I l, c 2 ν = 0 := by
    intro ν hν
    have h1 : ∑ n ∈ I (l + 1), R (l + 1) m n * G l 2 n ν = R (l + 1) m ν * rowU (l + 1) ν := by
      simp only [G_z, mul_ite, mul_zero]
      rw [Finset.sum_ite_eq', if_pos]
      rw [Finset.mem_Icc] at hν ⊢; push_cast; omega
    show B 2 ν - _ = 0
    rw [h1, hR.mid l hl1 m hm ν hν]
    exact sub_self _
  have hz : pderiv 2 F = 0 := by
    rw [hd 2]; exact Finset.sum_eq_zero fun ν hν => by rw [hc2 ν hν, zero_smul]
  have hmid : ∀ j, ∀ ν ∈ I k, c j ν = 0 := by
    intro j ν hν
    have h1 : pderiv 2 (pderiv j F) = 0 := by rw [pderiv_comm', hz, map_zero]
    rw [hd j, map_sum] at h1
    simp only [Derivation.map_smul, hl, pderiv_z_fh, smul_smul] at h1
    rw [sum_I_succ, fh_of_lt, fh_of_lt, smul_zero, smul_zero, zero_add, zero_add] at h1
    rotate_left
    · rw [abs_neg, abs_of_pos (by omega)]; omega
    · rw [abs_of_pos (by omega)]; omega
    exact (mul_eq_zero.1 (fh_indep k _ h1 ν hν)).resolve_right (rowU_pos hν).ne'
  have hends : ∀ j, pderiv j F = (c j l * sec k) • pc (k + 1) (k + 1) + (c j (-l) * sec k) • ps (k + 1) (k + 1) := by
    intro j
    rw [hd j, hl, sum_I_succ, Finset.sum_eq_zero (s := I k) (fun ν hν => by rw [hmid j ν hν, zero_smul]), add_zero,
      fh_top, fh_bot, smul_smul, smul_smul]
    push_cast; rfl
  have htop : c 0 l = c 1 (-l) := by
    have h1 : B 0 l - B 1 (-l) = R (l + 1) m ((l : ℤ) + 1) * √((2 * (l : ℝ) + 1) * (2 * (l : ℝ) + 2)) := by
      rw [hR.top l hl1 m hm]
      show rowComb _ _ _ - rowComb _ _ _ = _
      have e := rowComb_add (l + 1) m (fun i a => r i 0 * R l a l) (fun i a => (-1 : ℝ) • (r i 1 * R l a (-l)))
      rw [rowComb_smul] at e
      rw [show (fun i a => r i 0 * R l a l - r i 1 * R l a (-l))
        = (fun i a => r i 0 * R l a l + (-1 : ℝ) • (r i 1 * R l a (-l))) by funext i a; simp; ring, e]
      simp; ring
    have h2 : ∑ n ∈ I (l + 1), R (l + 1) m n * G l 0 n l - ∑ n ∈ I (l + 1), R (l + 1) m n * G l 1 n (-l)
        = R (l + 1) m ((l : ℤ) + 1) * √((2 * (l : ℝ) + 1) * (2 * (l : ℝ) + 2)) := by
      rw [← Finset.sum_sub_distrib]
      rw [Finset.sum_congr rfl (fun n hn => by rw [← mul_sub, G_top l hl1 n hn])]
      simp only [mul_ite, mul_zero]
      rw [Finset.sum_ite_eq', if_pos]
      rw [Finset.mem_Icc]; push_cast; omega
    show B 0 l - _ = B 1 (-l) - _
    linarith
  have hbot : c 0 (-l) = -c 1 l := by
    have h1 : B 0 (-l) + B 1 l = R (l + 1) m (-((l : ℤ) + 1)) * √((2 * (l : ℝ) + 1) * (2 * (l : ℝ) + 2)) := by
      rw [hR.bot l hl1 m hm, rowComb_add]
    have h2 : ∑ n ∈ I (l + 1), R (l + 1) m n * G l 0 n (-l) + ∑ n ∈ I (l + 1), R (l + 1) m n * G l 1 n l
        = R (l + 1) m (-((l : ℤ) + 1)) * √((2 * (l : ℝ) + 1) * (2 * (l : ℝ) + 2)) := by
      rw [← Finset.sum_add_distrib]
      rw [Finset.sum_congr rfl (fun n hn => by rw [← mul_add, G_bot l hl1 n hn])]
      simp only [mul_ite, mul_zero]
      rw [Finset.sum_ite_eq', if_pos]
      rw [Finset.mem_Icc]; push_cast; omega
    show B 0 (-l) - _ = -(B 1 l - _)
    linarith
  have hlap : lap F = 0 := by
    rw [hF, lap_sub, lap_sub_subst r hr, lap_fh, map_zero, lap_sum]
    simp [lap_smul, lap_fh]
  have hcomm : pderiv 0 (pderiv 1 F) = pderiv 1 (pderiv 0 F) := pderiv_comm' _ _ _
  simp only [lap, Fin.sum_univ_three, hz, map_zero, add_zero] at hlap
  rw [hends 0, hends 1, htop, hbot] at hlap hcomm
  simp only [map_add, Derivation.map_smul, (p_d k).1, (p_d k).2.1, (q_d k).1, (q_d k).2.1] at hlap hcomm
  have hs := (sec_pos k).ne'
  obtain ⟨h1, h2⟩ := pq_zero k (a := c 1 (-l) * sec k) (b := -c 1 l * sec k)
    (by linear_combination (norm := module) hlap) (by linear_combination (norm := module) -hcomm)
  have e1 := (mul_eq_zero.1 h1).resolve_right hs
  have e2 : c 1 l = 0 := neg_eq_zero.1 ((mul_eq_zero.1 h2).resolve_right hs)
  apply eq_zero_of_grad
  · intro j
    fin_cases j
    · show pderiv 0 F = 0
      rw [hends, htop, hbot, e1, e2]; simp
    · show pderiv 1 F = 0
      rw [hends, e1, e2]; simp
    · exact hz
  · have h1 : ∀ n, constantCoeff (fh (l + 1) n) = 0 := fun n => by
      rw [constantCoeff_eq, aeval_fh, harm_origin]
    have h2 : ∀ p : Pol, constantCoeff (sub r p) = constantCoeff p := by
      intro p
      rw [constantCoeff_eq, constantCoeff_eq, sub, ← AlgHom.comp_apply, comp_aeval]
      simp
    rw [hF, map_sub, h2, h1, map_sum, Finset.sum_eq_zero, sub_zero]
    intro n _
    rw [MvPolynomial.smul_eq_C_mul, map_mul, h1, mul_zero]

theorem rot_main (hr : r * r.transpose = 1) (hR : RotRec r R) : ∀ k : ℕ, ∀ m ∈ I (k + 1),
    sub r (fh (k + 1) m) = ∑ n ∈ I (k + 1), R (k + 1) m n • fh (k + 1) n
  | 0 => by
    intro m hm
    have hI : I 1 = {idx 0, idx 1, idx 2} := by decide
    have hm' : m ∈ I 1 := hm
    rw [hI] at hm'
    have key : ∀ i, sub r (fh 1 (idx i)) = ∑ n ∈ I 1, R 1 (idx i) n • fh 1 n := by
      intro i
      rw [hI, Finset.sum_insert (by decide), Finset.sum_insert (by decide), Finset.sum_singleton]
      simp only [hR.one, fh_one]
      simp [sub, Fin.sum_univ_three, add_assoc]
    simp only [Finset.mem_insert, Finset.mem_singleton] at hm'
    rcases hm' with h | h | h <;> rw [h] <;> exact key _
  | k + 1 => rot_step hr hR k (rot_main hr hR k)

/-- The rotation theorem for points. -/
theorem rot_point (hr : r * r.transpose = 1) (hR : RotRec r R) (l : ℕ) (hl : 1 ≤ l) (m : ℤ) (hm : m ∈ I l)
    (v : Fin 3 → ℝ) :
    harm (r.mulVec v 0) (r.mulVec v 1) (r.mulVec v 2) l m = ∑ n ∈ I l, R l m n * harm (v 0) (v 1) (v 2) l n := by
  obtain ⟨k, rfl⟩ : ∃ k, l = k + 1 := ⟨l - 1, by omega⟩
  have h := congrArg (aeval v) (rot_main hr hR k m hm)
  rw [sub, ← AlgHom.comp_apply, comp_aeval, map_sum] at h
  simp only [map_smul, aeval_fh, smul_eq_mul] at h
  rw [← h]
  simp [Matrix.mulVec, dotProduct]

end step
end Verif.Solid
