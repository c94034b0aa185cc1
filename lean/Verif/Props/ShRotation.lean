import Verif.Proofs.Addition
import Verif.Model.SphCore
import Verif.Props.Rotations3
import Verif.Props.Coordinates
import Verif.Props.Angles
import Verif.Props.Acn

/-!
C18-C21: addition theorem for `sh_matrix`, SH rotation matrices.
-/

namespace Verif.Sph
open Real Verif.Solid Verif.Utils

/-- The unit vector of a direction as a 3-vector (specification, equal to `dir2cart`). -/
noncomputable def dirVec (azi zen : ℝ) : Fin 3 → ℝ := ![cos azi * sin zen, sin azi * sin zen, cos zen]

theorem dirVec_eq (azi zen : ℝ) :
    dirVec azi zen = ![(dir2cart azi zen).1, (dir2cart azi zen).2.1, (dir2cart azi zen).2.2] := rfl

theorem realSH_dir (n : ℕ) (m : ℤ) (azi zen : ℝ) (hz : zen ∈ Set.Icc 0 π) : realSH n m azi zen
    = √((2 * n + 1) / (4 * π)) * harm (dirVec azi zen 0) (dirVec azi zen 1) (dirVec azi zen 2) n m := by
  rw [realSH_eq_harm, abs_of_nonneg (sin_nonneg_of_mem_Icc hz)]; rfl

theorem cos_angleBetween (a1 z1 a2 z2 : ℝ) :
    cos (angleBetween (dirVec a1 z1) (dirVec a2 z2)) = dirVec a1 z1 ⬝ᵥ dirVec a2 z2 := by
  have hn : ∀ a z, norm3 (dirVec a z) = 1 := by
    intro a z
    unfold norm3
    rw [Real.sqrt_eq_one]
    simp [dirVec, dotProduct, Fin.sum_univ_three]
    have := sin_sq_add_cos_sq a; have := sin_sq_add_cos_sq z; nlinarith
  have hd : |dirVec a1 z1 ⬝ᵥ dirVec a2 z2| ≤ 1 := by
    have h1 : dirVec a1 z1 ⬝ᵥ dirVec a2 z2 = inner ℝ (unitVec a1 z1) (unitVec a2 z2) := by
      rw [inner_unitVec, cos_sub]
      simp [dirVec, dotProduct, Fin.sum_univ_three]; ring
    rw [h1]
    have := abs_real_inner_le_norm (unitVec a1 z1) (unitVec a2 z2)
    rwa [norm_unitVec, norm_unitVec, mul_one] at this
  rw [abs_le] at hd
  unfold angleBetween clip1
  simp only [hn, mul_one, div_one]
  rw [max_eq_left hd.1, min_eq_left hd.2, cos_arccos hd.1 hd.2]

/-- C18: addition theorem, order by order, for the values `sh_matrix` computes. -/
theorem C18_addition (n : ℕ) (a1 z1 a2 z2 : ℝ) (h1 : z1 ∈ Set.Icc 0 π) (h2 : z2 ∈ Set.Icc 0 π) :
    ∑ m ∈ Finset.Icc (-(n : ℤ)) n, realSH n m a1 z1 * realSH n m a2 z2
      = (2 * n + 1) / (4 * π) * evalLegendre n (cos (angleBetween (dirVec a1 z1) (dirVec a2 z2))) := by
  have hs : √((2 * (n : ℝ) + 1) / (4 * π)) * √((2 * (n : ℝ) + 1) / (4 * π)) = (2 * n + 1) / (4 * π) :=
    Real.mul_self_sqrt (by positivity)
  have e1 : (cos a1 * sin z1) ^ 2 + (sin a1 * sin z1) ^ 2 + cos z1 ^ 2 = 1 := by
    have := sin_sq_add_cos_sq a1; have := sin_sq_add_cos_sq z1; nlinarith
  have h := harm_addition n (cos a1 * sin z1) (sin a1 * sin z1) (cos z1) a2 (cos z2) (sin z2) e1
    (by rw [add_comm]; exact sin_sq_add_cos_sq z2)
  rw [cos_angleBetween]
  have hd : dirVec a1 z1 ⬝ᵥ dirVec a2 z2 = cos a1 * sin z1 * (cos a2 * sin z2) + sin a1 * sin z1 * (sin a2 * sin z2)
      + cos z1 * cos z2 := by simp [dirVec, dotProduct, Fin.sum_univ_three]
  rw [hd, ← h, Finset.mul_sum]
  refine Finset.sum_congr rfl fun m _ => ?_
  rw [realSH_dir n m a1 z1 h1, realSH_dir n m a2 z2 h2, mul_mul_mul_comm, hs]
  simp only [dirVec, Matrix.cons_val_zero, Matrix.cons_val_one, Matrix.cons_val]

/-- `C18_addition`: a right angle, order two. -/
example : ∑ m ∈ Finset.Icc (-((2 : ℕ) : ℤ)) (2 : ℕ), realSH 2 m 0 (π / 2) * realSH 2 m 1 0
    = (2 * (2 : ℕ) + 1) / (4 * π) * evalLegendre 2 (cos (angleBetween (dirVec 0 (π / 2)) (dirVec 1 0))) :=
  C18_addition 2 0 (π / 2) 1 0 ⟨by positivity, by linarith [pi_pos]⟩ ⟨le_rfl, pi_pos.le⟩

/-- C18: two rows of the SH matrix with a weight per order give the weighted band-limited Dirac at their angle. -/
theorem C18_kernel (N : ℕ) (w : ℕ → ℝ) (a1 z1 a2 z2 : ℝ) (h1 : z1 ∈ Set.Icc 0 π) (h2 : z2 ∈ Set.Icc 0 π) :
    bandlimitedDirac N (angleBetween (dirVec a1 z1) (dirVec a2 z2)) (some ((List.range (N + 1)).map w))
      = .ok (∑ q, shVec N a1 z1 q * repVec N w q * shVec N a2 z2 q) := by
  unfold bandlimitedDirac
  rw [if_pos (by simp)]
  congr 1
  have h := sum_acn N (fun n m => realSH n m a1 z1 * w n * realSH n m a2 z2)
  unfold shVec repVec
  rw [h]
  refine Finset.sum_congr rfl fun n hn => ?_
  rw [Finset.mem_range] at hn
  have e : ∀ m ∈ I n, realSH n m a1 z1 * w n * realSH n m a2 z2 = w n * (realSH n m a1 z1 * realSH n m a2 z2) :=
    fun m _ => by ring
  rw [Finset.sum_congr rfl e, ← Finset.mul_sum, C18_addition n a1 z1 a2 z2 h1 h2]
  have hw : ((some ((List.range (N + 1)).map w)).getD (List.replicate (N + 1) 1)).getD n 0 = w n := by
    simp [List.getElem?_range hn]
  rw [hw]; ring

/-- `C18_kernel`: weights 1, 1/2, 1/3. -/
example : bandlimitedDirac 2 (angleBetween (dirVec 0 (π / 2)) (dirVec 1 0)) (some ((List.range 3).map fun n : ℕ => 1 / ((n : ℝ) + 1)))
    = .ok (∑ q, shVec 2 0 (π / 2) q * repVec 2 (fun n : ℕ => 1 / ((n : ℝ) + 1)) q * shVec 2 1 0 q) :=
  C18_kernel 2 _ 0 (π / 2) 1 0 ⟨by positivity, by linarith [pi_pos]⟩ ⟨le_rfl, pi_pos.le⟩

/-- C18: unweighted form. -/
theorem C18_kernel_default (N : ℕ) (a1 z1 a2 z2 : ℝ) (h1 : z1 ∈ Set.Icc 0 π) (h2 : z2 ∈ Set.Icc 0 π) :
    bandlimitedDirac N (angleBetween (dirVec a1 z1) (dirVec a2 z2)) none
      = .ok (shVec N a1 z1 ⬝ᵥ shVec N a2 z2) := by
  have h := C18_kernel N (fun _ => 1) a1 z1 a2 z2 h1 h2
  simp only [repVec, mul_one] at h
  rw [show dotProduct (shVec N a1 z1) (shVec N a2 z2) = ∑ q, shVec N a1 z1 q * shVec N a2 z2 q from rfl, ← h]
  unfold bandlimitedDirac
  simp

/-- C18: `bandlimited_dirac` is defined exactly for one weight per order, `N + 1` of them, and raises `AssertionError` otherwise. -/
theorem C18_weights (N : ℕ) (d : ℝ) (w : List ℝ) :
    ((∃ y, bandlimitedDirac N d (some w) = .ok y) ↔ w.length = N + 1) ∧
    (w.length ≠ N + 1 → bandlimitedDirac N d (some w) = .error .assertionError) := by
  unfold bandlimitedDirac
  simp only [Option.getD_some]
  split
  · rename_i h; exact ⟨⟨fun _ => h, fun _ => ⟨_, rfl⟩⟩, fun h' => absurd h h'⟩
  · rename_i h; exact ⟨⟨fun ⟨_, hy⟩ => (by cases hy), fun h' => absurd h' h⟩, fun _ => rfl⟩

example : bandlimitedDirac 2 0 (some [1, 1]) = .error .assertionError := (C18_weights 2 0 [1, 1]).2 (by simp)

/-- C18: every row of the SH matrix has squared norm `(N+1)²/(4π)`. -/
theorem C18_row_norm (N : ℕ) (azi zen : ℝ) (hz : zen ∈ Set.Icc 0 π) :
    shVec N azi zen ⬝ᵥ shVec N azi zen = (N + 1) ^ 2 / (4 * π) := by
  have hang : cos (angleBetween (dirVec azi zen) (dirVec azi zen)) = 1 := by
    rw [cos_angleBetween]
    simp [dirVec, dotProduct, Fin.sum_univ_three]
    have := sin_sq_add_cos_sq azi; have := sin_sq_add_cos_sq zen; nlinarith
  have h := sum_acn N (fun n m => realSH n m azi zen * realSH n m azi zen)
  unfold dotProduct shVec
  rw [h]
  have e : ∀ n ∈ Finset.range (N + 1), ∑ m ∈ I n, realSH n m azi zen * realSH n m azi zen = (2 * n + 1) / (4 * π) := by
    intro n _
    rw [C18_addition n azi zen azi zen hz hz, hang, evalLegendre_one, mul_one]
  rw [Finset.sum_congr rfl e, ← Finset.sum_div]
  congr 1
  clear h e hang hz
  induction N with
  | zero => simp
  | succ N ih => rw [Finset.sum_range_succ, ih]; push_cast; ring

example : shVec 3 (π / 4) (π / 2) ⬝ᵥ shVec 3 (π / 4) (π / 2) = (3 + 1) ^ 2 / (4 * π) :=
  by exact_mod_cast C18_row_norm 3 (π / 4) (π / 2) ⟨by positivity, by linarith [pi_pos]⟩

/-! ### Rotation -/

theorem euler_orth (yaw pitch roll : ℝ) :
    rotationEuler yaw pitch roll * (rotationEuler yaw pitch roll).transpose = 1 :=
  mul_eq_one_comm.1 (C04_isRotation yaw pitch roll).1

/-- Rotating the order-`n` harmonics of a direction (all orders, including 0). -/
theorem realSH_rot (r : Matrix (Fin 3) (Fin 3) ℝ) (hr : r * r.transpose = 1) (n : ℕ) (m : ℤ) (hm : m ∈ I n)
    (a z a' z' : ℝ) (hz : z ∈ Set.Icc 0 π) (hz' : z' ∈ Set.Icc 0 π) (h : dirVec a' z' = r.mulVec (dirVec a z)) :
    ∑ m' ∈ I n, Rc r n m m' * realSH n m' a z = realSH n m a' z' := by
  simp only [realSH_dir n _ a z hz, realSH_dir n _ a' z' hz', h]
  rcases Nat.eq_zero_or_pos n with rfl | hn
  · have hI : I 0 = {0} := by ext a; simp only [Finset.mem_Icc, Finset.mem_singleton]; omega
    rw [hI, Finset.mem_singleton] at hm
    subst hm
    rw [hI, Finset.sum_singleton, harm_order_zero, harm_order_zero, Rc]; simp
  · rw [rot_point hr (rotRec_Rc r) n hn m hm (dirVec a z), Finset.mul_sum]
    refine Finset.sum_congr rfl fun m' _ => by ring

theorem blockE_mulVec (r : Matrix (Fin 3) (Fin 3) ℝ) (N : ℕ) (f : ℕ → ℤ → ℝ) (q : Fin ((N + 1) ^ 2)) :
    ∑ q' : Fin ((N + 1) ^ 2), blockE r _ (N + 1) q q' * f (acnOrder q') (acnDegree q')
      = ∑ m ∈ I (acnOrder q), Rc r (acnOrder q) (acnDegree q) m * f (acnOrder q) m := by
  have hq : acnOrder q < N + 1 := Nat.lt_succ_of_le (acnOrder_le q.2)
  have h := sum_acn N (fun n m => (if acnOrder q = n ∧ acnOrder q < N + 1 then Rc r (acnOrder q) (acnDegree q) m else 0)
    * f n m)
  unfold blockE
  rw [h, Finset.sum_eq_single (acnOrder q)]
  · simp [hq]
  · intro n _ hn
    refine Finset.sum_eq_zero fun m _ => ?_
    rw [if_neg (fun h => hn h.1.symm), zero_mul]
  · intro hn; exact absurd (Finset.mem_range.2 hq) hn

/-- C19: the SH rotation matrix maps the SH vector of every direction to the SH vector of the rotated direction. -/
theorem C19_rotation (N : ℕ) (hN : 1 ≤ N) (yaw pitch roll : ℝ) :
    ∃ R, shRotationMatrix N yaw pitch roll .real = .ok ⟨(N + 1) ^ 2, (N + 1) ^ 2, R⟩ ∧
      ∀ a z a' z', z ∈ Set.Icc 0 π → z' ∈ Set.Icc 0 π →
        dirVec a' z' = (rotationEuler yaw pitch roll).mulVec (dirVec a z) →
        R.mulVec (shVec N a z) = shVec N a' z' := by
  refine ⟨_, shRotationMatrix_eq N hN yaw pitch roll, ?_⟩
  intro a z a' z' hz hz' h
  funext q
  have e := blockE_mulVec (rotationEuler yaw pitch roll) N (fun n m => realSH n m a z) q
  have hm : acnDegree q ∈ I (acnOrder q) := mem_I.2 (acnDegree_abs q)
  rw [realSH_rot _ (euler_orth yaw pitch roll) _ _ hm a z a' z' hz hz' h] at e
  exact e

/-- The rotated direction in the hypothesis of C19 always exists (and `vec2dir` computes it). -/
theorem dirVec_vec2dir (v : Fin 3 → ℝ) (hv : v ⬝ᵥ v = 1) :
    (vec2dir v).2 ∈ Set.Icc 0 π ∧ dirVec (vec2dir v).1 (vec2dir v).2 = v := by
  have hs : v 0 ^ 2 + v 1 ^ 2 + v 2 ^ 2 = 1 := by
    rw [← hv]; simp [dotProduct, Fin.sum_univ_three]; ring
  have h0 : (v 0, v 1, v 2) ≠ (0, 0, 0) := by
    intro h
    simp only [Prod.mk.injEq] at h
    rw [h.1, h.2.1, h.2.2] at hs; norm_num at hs
  have h := (C01_dir2cart_cart2dir (v 0) (v 1) (v 2) h0).1
  rw [hs, Real.sqrt_one, div_one, div_one, div_one] at h
  refine ⟨⟨arccos_nonneg _, arccos_le_pi _⟩, ?_⟩
  rw [dirVec_eq]
  unfold vec2dir
  rw [h]
  ext i; fin_cases i <;> rfl

/-- C19: the same with the rotated direction computed by the library (`vec2dir`). -/
theorem C19_rotation_vec2dir (N : ℕ) (hN : 1 ≤ N) (yaw pitch roll a z : ℝ) (hz : z ∈ Set.Icc 0 π) :
    ∃ R, shRotationMatrix N yaw pitch roll .real = .ok ⟨(N + 1) ^ 2, (N + 1) ^ 2, R⟩ ∧
      R.mulVec (shVec N a z) = shVec N (vec2dir ((rotationEuler yaw pitch roll).mulVec (dirVec a z))).1
        (vec2dir ((rotationEuler yaw pitch roll).mulVec (dirVec a z))).2 := by
  obtain ⟨R, hR, h⟩ := C19_rotation N hN yaw pitch roll
  refine ⟨R, hR, ?_⟩
  have hu : (rotationEuler yaw pitch roll).mulVec (dirVec a z) ⬝ᵥ (rotationEuler yaw pitch roll).mulVec (dirVec a z)
      = 1 := by
    rw [C04_dot]
    simp [dirVec, dotProduct, Fin.sum_univ_three]
    have := sin_sq_add_cos_sq a; have := sin_sq_add_cos_sq z; nlinarith
  obtain ⟨h1, h2⟩ := dirVec_vec2dir _ hu
  exact h a z _ _ hz h1 h2

example : ∃ R, shRotationMatrix 3 1 2 3 .real = .ok ⟨(3 + 1) ^ 2, (3 + 1) ^ 2, R⟩ ∧
    R.mulVec (shVec 3 (π / 3) (π / 2)) = shVec 3 (vec2dir ((rotationEuler 1 2 3).mulVec (dirVec (π / 3) (π / 2)))).1
        (vec2dir ((rotationEuler 1 2 3).mulVec (dirVec (π / 3) (π / 2)))).2 :=
  C19_rotation_vec2dir 3 (by norm_num) 1 2 3 (π / 3) (π / 2) ⟨by positivity, by linarith [pi_pos]⟩

/-- `rotate_sh` for a complete set of channels is multiplication with the transposed rotation matrix. -/
theorem rotateSh_eq (N B : ℕ) (hN : 1 ≤ N) (yaw pitch roll : ℝ) (F : Matrix (Fin B) (Fin ((N + 1) ^ 2)) ℝ) :
    rotateSh ⟨B, (N + 1) ^ 2, F⟩ yaw pitch roll .real
      = .ok ⟨B, (N + 1) ^ 2, F * (blockE (rotationEuler yaw pitch roll) ((N + 1) ^ 2) (N + 1)).transpose⟩ := by
  have hs : √((((N + 1) ^ 2 : ℕ)) : ℝ) - 1 = N := by
    push_cast
    rw [Real.sqrt_sq (by positivity)]; ring
  unfold rotateSh
  simp only [hs]
  rw [if_pos (by simp)]
  have hp : pyInt (N : ℝ) = N := by unfold pyInt; rw [if_pos (by positivity)]; simp
  rw [hp, shRotationMatrix_eq N hN]
  simp only [bind, Except.bind, NpMat.matmul, NpMat.transpose]
  exact dif_pos (rfl : (N + 1) ^ 2 = (N + 1) ^ 2)

/-- C19: `rotate_sh` of sources encoded in any directions is the same sources encoded in the rotated directions. -/
theorem C19_rotateSh (N B : ℕ) (hN : 1 ≤ N) (yaw pitch roll : ℝ) (s : Fin B → ℝ) (a z a' z' : Fin B → ℝ)
    (hz : ∀ i, z i ∈ Set.Icc 0 π) (hz' : ∀ i, z' i ∈ Set.Icc 0 π)
    (h : ∀ i, dirVec (a' i) (z' i) = (rotationEuler yaw pitch roll).mulVec (dirVec (a i) (z i))) :
    rotateSh ⟨B, (N + 1) ^ 2, fun i q => s i * shVec N (a i) (z i) q⟩ yaw pitch roll .real
      = .ok ⟨B, (N + 1) ^ 2, fun i q => s i * shVec N (a' i) (z' i) q⟩ := by
  refine (rotateSh_eq N B hN yaw pitch roll (fun i q => s i * shVec N (a i) (z i) q)).trans ?_
  congr 2
  funext i q
  obtain ⟨R, hR, hrot⟩ := C19_rotation N hN yaw pitch roll
  rw [shRotationMatrix_eq N hN] at hR
  have hRe : blockE (rotationEuler yaw pitch roll) ((N + 1) ^ 2) (N + 1) = R := by
    have := Except.ok.inj hR
    exact eq_of_heq (NpMat.mk.inj this).2.2
  have hq := congrFun (hrot _ _ _ _ (hz i) (hz' i) (h i)) q
  rw [hRe, ← hq, Matrix.mulVec, dotProduct, Finset.mul_sum]
  refine (Matrix.mul_apply).trans ?_
  refine Finset.sum_congr rfl fun k _ => ?_
  rw [Matrix.transpose_apply]; ring

example : rotateSh ⟨1, (1 + 1) ^ 2, fun _ q => 2 * shVec 1 0 (π / 2) q⟩ (-(π / 2)) 0 0 .real
    = .ok ⟨1, (1 + 1) ^ 2, fun _ q => 2 * shVec 1 (π / 2) (π / 2) q⟩ := by
  refine C19_rotateSh 1 1 (le_refl _) (-(π / 2)) 0 0 (fun _ => 2) (fun _ => 0) (fun _ => π / 2) (fun _ => π / 2)
    (fun _ => π / 2) (fun _ => ?_) (fun _ => ?_) (fun _ => ?_)
  · exact ⟨by positivity, by linarith [pi_pos]⟩
  · exact ⟨by positivity, by linarith [pi_pos]⟩
  · ext i
    fin_cases i <;> simp [dirVec, rotationEuler, rotZ, rotY, rotX, Matrix.mulVec, dotProduct, Fin.sum_univ_three]

/-- C20: SH rotation matrices are orthogonal. -/
theorem C20_orthogonal (N : ℕ) (hN : 1 ≤ N) (yaw pitch roll : ℝ) :
    ∃ R, shRotationMatrix N yaw pitch roll .real = .ok ⟨(N + 1) ^ 2, (N + 1) ^ 2, R⟩ ∧
      R * R.transpose = 1 ∧ R.transpose * R = 1 := by
  refine ⟨_, shRotationMatrix_eq N hN yaw pitch roll, ?_⟩
  set r := rotationEuler yaw pitch roll
  have h : blockE r ((N + 1) ^ 2) (N + 1) * (blockE r ((N + 1) ^ 2) (N + 1)).transpose = 1 := by
    ext q p
    have e := blockE_mulVec r N (fun n m => if acnOrder p = n ∧ acnOrder p < N + 1 then Rc r n (acnDegree p) m else 0) q
    have hlt : acnOrder p < N + 1 := Nat.lt_succ_of_le (acnOrder_le p.2)
    rw [Matrix.mul_apply, Matrix.one_apply]
    have e' : ∑ q' : Fin ((N + 1) ^ 2), blockE r ((N + 1) ^ 2) (N + 1) q q'
        * (blockE r ((N + 1) ^ 2) (N + 1)).transpose q' p
        = ∑ m ∈ I (acnOrder q), Rc r (acnOrder q) (acnDegree q) m
          * (if acnOrder p = acnOrder q ∧ acnOrder p < N + 1 then Rc r (acnOrder q) (acnDegree p) m else 0) := by
      rw [← e]
      refine Finset.sum_congr rfl fun q' _ => ?_
      congr 1
      rw [Matrix.transpose_apply, blockE]
      by_cases hh : acnOrder p = acnOrder q'
      · rw [hh]
      · rw [if_neg (fun h => hh h.1), if_neg (fun h => hh h.1)]
    rw [e']
    by_cases ho : acnOrder p = acnOrder q
    · simp only [ho, true_and]
      rw [ho] at hlt
      simp only [hlt, if_true]
      have hmq : acnDegree q ∈ I (acnOrder q) := mem_I.2 (acnDegree_abs q)
      have hmp : acnDegree p ∈ I (acnOrder q) := by rw [← ho]; exact mem_I.2 (acnDegree_abs p)
      have hiff : (q = p) ↔ (acnDegree q = acnDegree p) :=
        ⟨fun h => by rw [h], fun h => Fin.ext (acn_ext ho.symm h)⟩
      rcases Nat.eq_zero_or_pos (acnOrder q) with h0 | hpos
      · rw [h0] at hmq hmp ⊢
        have hI : I 0 = {0} := by ext a; simp only [Finset.mem_Icc, Finset.mem_singleton]; omega
        rw [hI, Finset.mem_singleton] at hmq hmp
        rw [if_pos (hiff.2 (by rw [hmq, hmp])), hI, Finset.sum_singleton, Rc]; ring
      · obtain ⟨k, hk⟩ : ∃ k, acnOrder q = k + 1 := ⟨acnOrder q - 1, by omega⟩
        rw [hk] at hmq hmp ⊢
        rw [rot_orth (euler_orth yaw pitch roll) (rotRec_Rc r) k _ hmq _ hmp]
        simp only [hiff]
    · rw [if_neg (fun h => ho (by rw [h]))]
      refine Finset.sum_eq_zero fun m _ => ?_
      rw [if_neg (fun h => ho h.1), mul_zero]
  exact ⟨h, mul_eq_one_comm.1 h⟩

/-- C20: block diagonal: entries between channels of different order vanish, and the entries of order `n` do not depend on
the maximum order, so that rotations of lower order are the leading blocks. -/
theorem C20_blocks (N N' : ℕ) (hN : 1 ≤ N) (hNN : N ≤ N') (yaw pitch roll : ℝ) :
    ∃ R R', shRotationMatrix N yaw pitch roll .real = .ok ⟨(N + 1) ^ 2, (N + 1) ^ 2, R⟩ ∧
      shRotationMatrix N' yaw pitch roll .real = .ok ⟨(N' + 1) ^ 2, (N' + 1) ^ 2, R'⟩ ∧
      (∀ n m n' m', n ≤ N → |m| ≤ (n : ℤ) → n' ≤ N → |m'| ≤ (n' : ℤ) → n ≠ n' →
        ∀ (q p : Fin ((N + 1) ^ 2)), (q : ℤ) = acn n m → (p : ℤ) = acn n' m' → R q p = 0) ∧
      ∀ (q p : Fin ((N + 1) ^ 2)) (h : (N + 1) ^ 2 ≤ (N' + 1) ^ 2), R q p = R' (Fin.castLE h q) (Fin.castLE h p) := by
  refine ⟨_, _, shRotationMatrix_eq N hN yaw pitch roll, shRotationMatrix_eq N' (by omega) yaw pitch roll, ?_, ?_⟩
  · intro n m n' m' _ hm _ hm' hne q p hq hp
    obtain ⟨k, hk, e, _⟩ := acn_toNat hm
    obtain ⟨k', hk', e', _⟩ := acn_toNat hm'
    have eq : q.val = n ^ 2 + k := by rw [← e, ← hq]; simp
    have ep : p.val = n' ^ 2 + k' := by rw [← e', ← hp]; simp
    rw [blockE, if_neg]
    rintro ⟨h, _⟩
    rw [eq, ep, acnOrder_eq hk, acnOrder_eq hk'] at h
    exact hne h
  · intro q p h
    have hq := acnOrder_le q.2
    simp only [blockE, Fin.val_castLE]
    by_cases ho : acnOrder q = acnOrder p
    · rw [if_pos ⟨ho, by omega⟩, if_pos ⟨ho, by omega⟩]
    · rw [if_neg (fun h => ho h.1), if_neg (fun h => ho h.1)]

/-- C20: every order keeps its energy. -/
theorem C20_energy_per_order (N : ℕ) (hN : 1 ≤ N) (yaw pitch roll : ℝ) (f : ℕ → ℤ → ℝ) (n : ℕ) :
    ∃ R, shRotationMatrix N yaw pitch roll .real = .ok ⟨(N + 1) ^ 2, (N + 1) ^ 2, R⟩ ∧
      ∑ q : Fin ((N + 1) ^ 2), (if acnOrder q = n then
        (R.mulVec (fun q' => f (acnOrder q') (acnDegree q')) q) ^ 2 else 0)
      = ∑ q : Fin ((N + 1) ^ 2), (if acnOrder q = n then (f (acnOrder q) (acnDegree q)) ^ 2 else 0) := by
  obtain ⟨R, hR, _, horth⟩ := C20_orthogonal N hN yaw pitch roll
  refine ⟨R, hR, ?_⟩
  rw [shRotationMatrix_eq N hN] at hR
  have hRe : blockE (rotationEuler yaw pitch roll) ((N + 1) ^ 2) (N + 1) = R := by
    exact eq_of_heq (NpMat.mk.inj (Except.ok.inj hR)).2.2
  set x : Fin ((N + 1) ^ 2) → ℝ := fun q => if acnOrder q = n then f (acnOrder q) (acnDegree q) else 0 with hx
  have key : ∀ q, R.mulVec x q = if acnOrder q = n then R.mulVec (fun q' => f (acnOrder q') (acnDegree q')) q else 0 := by
    intro q
    simp only [Matrix.mulVec, dotProduct, ← hRe]
    split_ifs with h
    · refine Finset.sum_congr rfl fun p _ => ?_
      simp only [hx, blockE]
      by_cases h1 : acnOrder p = n
      · rw [if_pos h1]
      · rw [if_neg h1, if_neg (fun hh => h1 (hh.1.symm.trans h)), zero_mul, zero_mul]
    · refine Finset.sum_eq_zero fun p _ => ?_
      simp only [hx, blockE]
      by_cases h1 : acnOrder p = n
      · rw [if_neg (fun hh => h (hh.1.trans h1)), zero_mul]
      · rw [if_neg h1, mul_zero]
  have hnorm : R.mulVec x ⬝ᵥ R.mulVec x = x ⬝ᵥ x := by
    rw [Matrix.dotProduct_mulVec, ← Matrix.mulVec_transpose, Matrix.mulVec_mulVec, horth, Matrix.one_mulVec]
  have l : R.mulVec x ⬝ᵥ R.mulVec x = ∑ q : Fin ((N + 1) ^ 2), (if acnOrder q = n then
        (R.mulVec (fun q' => f (acnOrder q') (acnDegree q')) q) ^ 2 else 0) := by
    refine Finset.sum_congr rfl fun q _ => ?_
    rw [key]; split_ifs <;> ring
  have r : x ⬝ᵥ x = ∑ q : Fin ((N + 1) ^ 2), (if acnOrder q = n then (f (acnOrder q) (acnDegree q)) ^ 2 else 0) := by
    refine Finset.sum_congr rfl fun q _ => ?_
    simp only [hx]; split_ifs <;> ring
  rw [← l, ← r, hnorm]

/-- C20: zero angles give the identity. -/
theorem C20_identity (N : ℕ) (hN : 1 ≤ N) :
    shRotationMatrix N 0 0 0 .real = .ok ⟨(N + 1) ^ 2, (N + 1) ^ 2, 1⟩ := by
  rw [shRotationMatrix_eq N hN, (C04_axes 0 0 0 0 0).2.2.2.2.1]
  congr 2
  ext q p
  rw [blockE, Matrix.one_apply]
  have hlt : acnOrder q < N + 1 := Nat.lt_succ_of_le (acnOrder_le q.2)
  by_cases ho : acnOrder q = acnOrder p
  · have hiff : (q = p) ↔ (acnDegree q = acnDegree p) :=
      ⟨fun h => by rw [h], fun h => Fin.ext (acn_ext ho h)⟩
    rw [if_pos ⟨ho, hlt⟩]
    have hmq : acnDegree q ∈ I (acnOrder q) := mem_I.2 (acnDegree_abs q)
    have hmp : acnDegree p ∈ I (acnOrder q) := by rw [ho]; exact mem_I.2 (acnDegree_abs p)
    simp only [hiff]
    rcases Nat.eq_zero_or_pos (acnOrder q) with h0 | hpos
    · rw [h0] at hmq hmp ⊢
      have hI : I 0 = {0} := by ext a; simp only [Finset.mem_Icc, Finset.mem_singleton]; omega
      rw [hI, Finset.mem_singleton] at hmq hmp
      rw [if_pos (by rw [hmq, hmp]), Rc]
    · obtain ⟨k, hk⟩ : ∃ k, acnOrder q = k + 1 := ⟨acnOrder q - 1, by omega⟩
      rw [hk] at hmq hmp ⊢
      have hmain := rot_main (r := 1) (R := Rc 1) (by simp) (rotRec_Rc 1) k (acnDegree q) hmq
      have hsub : sub (1 : Matrix (Fin 3) (Fin 3) ℝ) (fh (k + 1) (acnDegree q)) = fh (k + 1) (acnDegree q) := by
        have : sub (1 : Matrix (Fin 3) (Fin 3) ℝ) = AlgHom.id ℝ Pol := by
          apply MvPolynomial.algHom_ext
          intro i
          fin_cases i <;> simp [sub, Matrix.one_apply]
        rw [this]; rfl
      rw [hsub] at hmain
      have hz : ∑ n ∈ I (k + 1), (Rc 1 (k + 1) (acnDegree q) n - if acnDegree q = n then 1 else 0) • fh (k + 1) n = 0 := by
        simp only [sub_smul, Finset.sum_sub_distrib, ← hmain, ite_smul, one_smul, zero_smul]
        rw [Finset.sum_ite_eq, if_pos hmq, sub_self]
      have := fh_indep (k + 1) _ hz (acnDegree p) hmp
      linarith
  · rw [if_neg (fun h => ho h.1), if_neg (fun h => ho (by rw [h]))]

/-- `C19_rotation`, `C20_orthogonal`, `C20_blocks`, `C20_energy_per_order`, `C20_identity`: order two with three angles. -/
example : (∃ R, shRotationMatrix 2 1 2 3 .real = .ok ⟨(2 + 1) ^ 2, (2 + 1) ^ 2, R⟩ ∧ R * R.transpose = 1) ∧
    shRotationMatrix 2 0 0 0 .real = .ok ⟨(2 + 1) ^ 2, (2 + 1) ^ 2, 1⟩ := by
  obtain ⟨R, h, h1, -⟩ := C20_orthogonal 2 (by norm_num) 1 2 3
  exact ⟨⟨R, h, h1⟩, C20_identity 2 (by norm_num)⟩

/-- `C20_blocks`: the rotation of order one is the upper left part of the one of order three. -/
example : ∃ R R', shRotationMatrix 1 1 2 3 .real = .ok ⟨(1 + 1) ^ 2, (1 + 1) ^ 2, R⟩ ∧ shRotationMatrix 3 1 2 3 .real = .ok ⟨(3 + 1) ^ 2, (3 + 1) ^ 2, R'⟩ ∧
    R 2 3 = R' 2 3 ∧ R 0 2 = 0 := by
  obtain ⟨R, R', h, h', h1, h2⟩ := C20_blocks 1 3 le_rfl (by norm_num) 1 2 3
  exact ⟨R, R', h, h', h2 2 3 (by norm_num), h1 0 0 1 0 (by norm_num) (by norm_num) (by norm_num) (by norm_num) (by norm_num) 0 2 (by norm_num [acn]) (by norm_num [acn])⟩

/-- `C19_rotation`, `C20_energy_per_order`. -/
example : (∃ R, shRotationMatrix 1 (-(π / 2)) 0 0 .real = .ok ⟨(1 + 1) ^ 2, (1 + 1) ^ 2, R⟩ ∧ R.mulVec (shVec 1 0 0) = shVec 1 0 0) ∧
    ∃ R, shRotationMatrix 1 1 2 3 .real = .ok ⟨(1 + 1) ^ 2, (1 + 1) ^ 2, R⟩ ∧
      ∑ q : Fin ((1 + 1) ^ 2), (if acnOrder q = 1 then (R.mulVec (fun q' => (acnDegree q' : ℝ)) q) ^ 2 else 0)
        = ∑ q : Fin ((1 + 1) ^ 2), (if acnOrder q = 1 then ((acnDegree q : ℝ)) ^ 2 else 0) := by
  constructor
  · obtain ⟨R, h, h1⟩ := C19_rotation 1 le_rfl (-(π / 2)) 0 0
    refine ⟨R, h, h1 0 0 0 0 ⟨le_rfl, pi_pos.le⟩ ⟨le_rfl, pi_pos.le⟩ ?_⟩
    ext i
    fin_cases i <;> simp [rotationEuler, rotX, rotY, rotZ, dirVec, Matrix.mulVec, dotProduct, Fin.sum_univ_three, Matrix.mul_apply]
  · exact C20_energy_per_order 1 le_rfl 1 2 3 (fun _ m => (m : ℝ)) 1

/-- C21: what happens for each type and order: for `'complex'` and unknown types the documented exceptions, a square matrix for
every positive order. -/
theorem C21_defined_partial (N : ℤ) (yaw pitch roll : ℝ) :
    shRotationMatrix N yaw pitch roll .complex = .error .notImplementedError ∧
    shRotationMatrix N yaw pitch roll .other = .error .valueError ∧
    (1 ≤ N → ∃ R, shRotationMatrix N yaw pitch roll .real = .ok ⟨(N.toNat + 1) ^ 2, (N.toNat + 1) ^ 2, R⟩) := by
  refine ⟨rfl, rfl, fun h => ?_⟩
  obtain ⟨n, rfl⟩ : ∃ n : ℕ, N = n := ⟨N.toNat, by omega⟩
  exact ⟨_, shRotationMatrix_eq n (by omega) yaw pitch roll⟩

/-- C21 is false of the code at order 0: the loop over blocks always contains the order-1 block, whose assignment into the
1 × 1 array raises `ValueError`. -/
theorem C21_order_zero_raises (yaw pitch roll : ℝ) :
    shRotationMatrix 0 yaw pitch roll .real = .error .valueError := by
  unfold shRotationMatrix
  rw [shRotationBlocks_eq]
  rfl

/-- C21: consequently a single omnidirectional channel cannot be rotated. -/
theorem C21_rotateSh_order_zero_raises (B : ℕ) (F : Matrix (Fin B) (Fin 1) ℝ) (yaw pitch roll : ℝ) :
    rotateSh ⟨B, 1, F⟩ yaw pitch roll .real = .error .valueError := by
  have hs : √((1 : ℕ) : ℝ) - 1 = 0 := by simp
  unfold rotateSh
  simp only [hs]
  have hp : pyInt (0 : ℝ) = 0 := by simp [pyInt]
  rw [if_pos (by simp), hp, C21_order_zero_raises]; rfl

/-- C21: `rotate_sh` accepts a channel count (of at least two) exactly when it is a perfect square, and otherwise raises
`AssertionError`. -/
theorem C21_rotateSh_channels (B K : ℕ) (hK : 2 ≤ K) (F : Matrix (Fin B) (Fin K) ℝ) (yaw pitch roll : ℝ) :
    ((∃ n, n ^ 2 = K) → ∃ G, rotateSh ⟨B, K, F⟩ yaw pitch roll .real = .ok ⟨B, K, G⟩) ∧
    ((¬ ∃ n, n ^ 2 = K) → rotateSh ⟨B, K, F⟩ yaw pitch roll .real = .error .assertionError) ∧
    rotateSh ⟨B, K, F⟩ yaw pitch roll .complex = .error .notImplementedError ∧
    rotateSh ⟨B, K, F⟩ yaw pitch roll .other = .error .valueError := by
  refine ⟨?_, ?_, rfl, rfl⟩
  · rintro ⟨n, rfl⟩
    have h2 : 2 ≤ n := by
      by_contra hc
      interval_cases n <;> omega
    obtain ⟨N, rfl⟩ : ∃ N, n = N + 1 := ⟨n - 1, by omega⟩
    exact ⟨_, rotateSh_eq N B (by omega) yaw pitch roll F⟩
  · intro hn
    unfold rotateSh
    simp only
    rw [if_neg]
    intro h
    apply hn
    set z := ⌊√(K : ℝ) - 1⌋
    have hz : √(K : ℝ) = ((z + 1 : ℤ) : ℝ) := by push_cast; linarith
    have hz0 : 0 ≤ z + 1 := by
      have : (0 : ℝ) ≤ ((z + 1 : ℤ) : ℝ) := by rw [← hz]; positivity
      exact_mod_cast this
    refine ⟨(z + 1).toNat, ?_⟩
    have hsq : (K : ℝ) = (((z + 1 : ℤ)) : ℝ) ^ 2 := by rw [← hz, Real.sq_sqrt (by positivity)]
    have hsq' : (K : ℤ) = (z + 1) ^ 2 := by exact_mod_cast hsq
    have : (((z + 1).toNat ^ 2 : ℕ) : ℤ) = (K : ℤ) := by
      push_cast; rw [Int.toNat_of_nonneg hz0, hsq']
    exact_mod_cast this

example : rotateSh ⟨1, 5, 0⟩ 1 2 3 .real = .error .assertionError := by
  refine (C21_rotateSh_channels 1 5 (by norm_num) 0 1 2 3).2.1 ?_
  rintro ⟨n, hn⟩
  have : n < 3 := by nlinarith
  interval_cases n <;> omega

end Verif.Sph
