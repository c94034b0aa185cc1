import Verif.Props.ShRotation
import Verif.Props.SphDesigns
import Verif.Props.AnalysisTurned

/-!
C151: rotations compose. The rotation matrices of `sh_rotation_matrix` depend on the rotation of space only, they form a
group, every rotation of space can be asked for, and products of functions turn with their factors.
-/

namespace Verif.Props
open Real Matrix Verif.Utils Verif.Decoder Verif.Sph Verif.Solid Verif.Grids

/-- The coefficients of an expansion are determined by its values. -/
theorem expansion_unique {N : ℕ} (c c' : Fin ((N + 1) ^ 2) → ℝ)
    (h : ∀ a, ∀ z ∈ Set.Icc 0 π, ∑ q, c q * shVec N a z q = ∑ q, c' q * shVec N a z q) : c = c' := by
  obtain ⟨h1, h2, h3, -, -, hz⟩ := C27_equal_angle N
  obtain ⟨azi, ha⟩ := toFn _ h1
  obtain ⟨zen, he⟩ := toFn _ h2
  obtain ⟨w, hw⟩ := toFn _ h3
  have hg : equalAngle N = (List.ofFn azi, List.ofFn zen, List.ofFn w) := by rw [← ha, ← he, ← hw]
  have k : ∀ d : Fin ((N + 1) ^ 2) → ℝ, (inverseSht (fun q (_ : Fin 1) => d q) azi zen (some N)).map (sht (shMat N azi zen) (some w))
      = .ok fun q _ => d q := fun d => C22_equal_angle N 1 _ azi zen w hg _ (.inr rfl)
  have e : ∀ d : Fin ((N + 1) ^ 2) → ℝ, inverseSht (fun q (_ : Fin 1) => d q) azi zen (some N)
      = .ok fun i _ => ∑ q, d q * shVec N (azi i) (zen i) q := by
    intro d
    unfold inverseSht
    rw [if_neg (by simp)]
    refine (dif_pos (le_refl ((N + 1) ^ 2))).trans ?_
    congr 1
    ext i s
    refine Matrix.mul_apply.trans (Finset.sum_congr rfl fun q _ => ?_)
    exact mul_comm _ _
  have hee : inverseSht (fun q (_ : Fin 1) => c q) azi zen (some N) = inverseSht (fun q (_ : Fin 1) => c' q) azi zen (some N) := by
    rw [e, e]
    congr 1
    funext i s
    have hm : zen i ∈ (equalAngle N).2.1 := by rw [he]; exact ofFn_mem zen i
    exact h _ _ ⟨(hz _ hm).1.le, (hz _ hm).2.le⟩
  have := k c
  rw [hee, k c'] at this
  funext q
  exact (congrFun (congrFun (Except.ok.inj this) q) 0).symm

example (c c' : Fin ((2 + 1) ^ 2) → ℝ) (h : c 3 ≠ c' 3) :
    ∃ a, ∃ z ∈ Set.Icc 0 π, ∑ q, c q * shVec 2 a z q ≠ ∑ q, c' q * shVec 2 a z q := by
  by_contra hn
  push Not at hn
  exact h (congrFun (expansion_unique c c' hn) 3)

/-- Matrices with the same effect on the harmonics of every direction are equal. -/
theorem matrix_unique {N K : ℕ} (A B : Matrix (Fin K) (Fin ((N + 1) ^ 2)) ℝ)
    (h : ∀ a, ∀ z ∈ Set.Icc 0 π, A.mulVec (shVec N a z) = B.mulVec (shVec N a z)) : A = B := by
  ext i q
  exact congrFun (expansion_unique (A i) (B i) fun a z hz => congrFun (h a z hz) i) q

theorem dirVec_unit (a z : ℝ) : dirVec a z ⬝ᵥ dirVec a z = 1 := by
  simp [dirVec, dotProduct, Fin.sum_univ_three]
  have := sin_sq_add_cos_sq a
  have := sin_sq_add_cos_sq z
  nlinarith

/-- The direction a rotation turns a direction to. -/
theorem turned_dir (t : ℝ × ℝ × ℝ) (a z : ℝ) : ∃ a' z', z' ∈ Set.Icc 0 π ∧
    dirVec a' z' = (rotationEuler t.1 t.2.1 t.2.2).mulVec (dirVec a z) := by
  obtain ⟨h1, h2⟩ := dirVec_vec2dir ((rotationEuler t.1 t.2.1 t.2.2).mulVec (dirVec a z)) (by rw [C04_dot]; exact dirVec_unit a z)
  exact ⟨_, _, h1, h2⟩

theorem blockE_shVec {N : ℕ} (t : ℝ × ℝ × ℝ) {a z a' z' : ℝ} (hz : z ∈ Set.Icc 0 π) (hz' : z' ∈ Set.Icc 0 π)
    (h : dirVec a' z' = (rotationEuler t.1 t.2.1 t.2.2).mulVec (dirVec a z)) :
    (blockE (rotationEuler t.1 t.2.1 t.2.2) ((N + 1) ^ 2) (N + 1)).mulVec (shVec N a z) = shVec N a' z' := by
  funext q
  have e := blockE_mulVec (rotationEuler t.1 t.2.1 t.2.2) N (fun n m => realSH n m a z) q
  rw [realSH_rot _ (euler_orth _ _ _) _ _ (mem_I.2 (acnDegree_abs q)) a z a' z' hz hz' h] at e
  exact e

/-- Rotations of the harmonics compose like rotations of space. -/
theorem blockE_comp {N : ℕ} (t1 t2 t3 : ℝ × ℝ × ℝ)
    (h : rotationEuler t1.1 t1.2.1 t1.2.2 * rotationEuler t2.1 t2.2.1 t2.2.2 = rotationEuler t3.1 t3.2.1 t3.2.2) :
    blockE (rotationEuler t1.1 t1.2.1 t1.2.2) ((N + 1) ^ 2) (N + 1) * blockE (rotationEuler t2.1 t2.2.1 t2.2.2) ((N + 1) ^ 2) (N + 1)
      = blockE (rotationEuler t3.1 t3.2.1 t3.2.2) ((N + 1) ^ 2) (N + 1) := by
  refine matrix_unique _ _ fun a z hz => ?_
  obtain ⟨a2, z2, hz2, h2⟩ := turned_dir t2 a z
  obtain ⟨a1, z1, hz1, h1⟩ := turned_dir t1 a2 z2
  rw [← Matrix.mulVec_mulVec, blockE_shVec t2 hz hz2 h2, blockE_shVec t1 hz2 hz1 h1,
    blockE_shVec t3 hz hz1 (by rw [h1, h2, Matrix.mulVec_mulVec, h])]

/-- **C151** The rotation matrix of the harmonics depends on the rotation of space only, and determines it: two sets of angles
give the same `sh_rotation_matrix` exactly if they give the same `rotation_euler`. -/
theorem C151_same_rotation (N : ℕ) (hN : 1 ≤ N) (y p r y' p' r' : ℝ) :
    shRotationMatrix N y p r .real = shRotationMatrix N y' p' r' .real ↔ rotationEuler y p r = rotationEuler y' p' r' := by
  rw [shRotationMatrix_eq N hN, shRotationMatrix_eq N hN]
  constructor
  · intro h
    have hb : blockE (rotationEuler y p r) ((N + 1) ^ 2) (N + 1) = blockE (rotationEuler y' p' r') ((N + 1) ^ 2) (N + 1) :=
      eq_of_heq (NpMat.mk.inj (Except.ok.inj h)).2.2
    have h4 : 4 ≤ (N + 1) ^ 2 := by nlinarith
    have red : ∀ R : Mat3, ∀ i j : Fin 4, blockE R ((N + 1) ^ 2) (N + 1) (Fin.castLE h4 i) (Fin.castLE h4 j) = blockE R 4 2 i j := by
      intro R i j
      have o : acnOrder i < 2 := Nat.lt_succ_of_le (acnOrder_le (N := 1) i.2)
      unfold blockE
      simp only [Fin.val_castLE]
      by_cases hij : acnOrder i = acnOrder j
      · rw [if_pos ⟨hij, by omega⟩, if_pos ⟨hij, o⟩]
      · rw [if_neg (fun h => hij h.1), if_neg (fun h => hij h.1)]
    have key : ∀ i j : Fin 4, blockE (rotationEuler y p r) 4 2 i j = blockE (rotationEuler y' p' r') 4 2 i j := by
      intro i j
      rw [← red, ← red, hb]
    rw [blockE_first, blockE_first] at key
    ext i j
    fin_cases i <;> fin_cases j
    · exact key 3 3
    · exact key 3 1
    · exact key 3 2
    · exact key 1 3
    · exact key 1 1
    · exact key 1 2
    · exact key 2 3
    · exact key 2 1
    · exact key 2 2
  · intro h; rw [h]

theorem euler_up (y r : ℝ) : rotationEuler y (π / 2) r = !![0, sin (y + r), -cos (y + r); 0, cos (y + r), sin (y + r); 1, 0, 0] := by
  ext i j
  fin_cases i <;> fin_cases j <;>
    simp [rotationEuler, rotZ, rotY, rotX, Matrix.mul_apply, Fin.sum_univ_three, sin_add, cos_add] <;> ring

/-- With the x axis pointing straight up, yaw and roll turn about the same axis: only their sum matters. -/
example (y r d : ℝ) : shRotationMatrix 3 (y + d) (π / 2) (r - d) .real = shRotationMatrix 3 y (π / 2) r .real :=
  (C151_same_rotation 3 (by norm_num) (y + d) (π / 2) (r - d) y (π / 2) r).2 (by
    rw [euler_up, euler_up, show y + d + (r - d) = y + r by ring])

/-- A point on the unit circle has an angle. -/
theorem circle_angle (x y : ℝ) (h : x ^ 2 + y ^ 2 = 1) : ∃ t, x = cos t ∧ y = sin t := by
  have hn : ‖(⟨x, y⟩ : ℂ)‖ = 1 := by
    rw [Complex.norm_def, Complex.normSq_apply]
    show √(x * x + y * y) = 1
    rw [show x * x + y * y = 1 by nlinarith, Real.sqrt_one]
  refine ⟨Complex.arg ⟨x, y⟩, ?_, ?_⟩
  · rw [Complex.cos_arg (fun h0 => by rw [h0] at hn; simp at hn), hn, div_one]
  · rw [Complex.sin_arg, hn, div_one]

/-- A rotation which leaves the x axis where it is is a roll. -/
theorem fixes_x (B : Matrix (Fin 3) (Fin 3) ℝ) (hBr : IsRotation B) (b0 : B 0 0 = 1) : ∃ roll, B = rotX roll := by
  have hrow : B 0 0 ^ 2 + B 0 1 ^ 2 + B 0 2 ^ 2 = 1 := by
    have := congrFun (congrFun hBr.2.1 0) 0
    simp [Matrix.mul_apply, Fin.sum_univ_three] at this
    nlinarith
  have hc0 : B 0 0 ^ 2 + B 1 0 ^ 2 + B 2 0 ^ 2 = 1 := by
    have := congrFun (congrFun hBr.1 0) 0
    simp [Matrix.mul_apply, Fin.sum_univ_three] at this
    nlinarith
  rw [b0] at hrow hc0
  have b01 : B 0 1 = 0 := by nlinarith [sq_nonneg (B 0 1), sq_nonneg (B 0 2)]
  have b02 : B 0 2 = 0 := by nlinarith [sq_nonneg (B 0 1), sq_nonneg (B 0 2)]
  have b10 : B 1 0 = 0 := by nlinarith [sq_nonneg (B 1 0), sq_nonneg (B 2 0)]
  have b20 : B 2 0 = 0 := by nlinarith [sq_nonneg (B 1 0), sq_nonneg (B 2 0)]
  have r1 : B 1 1 ^ 2 + B 1 2 ^ 2 = 1 := by
    have := congrFun (congrFun hBr.2.1 1) 1
    simp [Matrix.mul_apply, Fin.sum_univ_three, b10] at this
    nlinarith
  have r2 : B 2 1 ^ 2 + B 2 2 ^ 2 = 1 := by
    have := congrFun (congrFun hBr.2.1 2) 2
    simp [Matrix.mul_apply, Fin.sum_univ_three, b20] at this
    nlinarith
  have r12 : B 1 1 * B 2 1 + B 1 2 * B 2 2 = 0 := by
    have := congrFun (congrFun hBr.2.1 1) 2
    simp [Matrix.mul_apply, Fin.sum_univ_three, b10, b20] at this
    nlinarith
  have hd : B 1 1 * B 2 2 - B 1 2 * B 2 1 = 1 := by
    have := hBr.2.2
    rw [det_fin_three, b0, b01, b02, b10, b20] at this
    nlinarith
  obtain ⟨roll, hr1, hr2⟩ := circle_angle (B 1 1) (B 1 2) r1
  have b22 : B 2 2 = cos roll := by
    rw [← hr1]
    linear_combination B 1 1 * hd + B 1 2 * r12 - B 2 2 * r1
  have b21 : B 2 1 = -sin roll := by
    rw [← hr2]
    linear_combination B 1 1 * r12 - B 1 2 * hd - B 2 1 * r1
  refine ⟨roll, ?_⟩
  ext i j
  fin_cases i <;> fin_cases j
  · simpa [rotX] using b0
  · simpa [rotX] using b01
  · simpa [rotX] using b02
  · simpa [rotX] using b10
  · simpa [rotX] using hr1
  · simpa [rotX] using hr2
  · simpa [rotX] using b20
  · simpa [rotX] using b21
  · simpa [rotX] using b22

/-- **C151** Every rotation of space (orthogonal, determinant one) is `rotation_euler` of some angles. -/
theorem C151_all_rotations (A : Matrix (Fin 3) (Fin 3) ℝ) (hA : IsRotation A) : ∃ yaw pitch roll, A = rotationEuler yaw pitch roll := by
  have hcol : A 0 0 ^ 2 + A 1 0 ^ 2 + A 2 0 ^ 2 = 1 := by
    have := congrFun (congrFun hA.1 0) 0
    simp [Matrix.mul_apply, Fin.sum_univ_three] at this
    nlinarith
  obtain ⟨pitch, yaw, h0, h1, h2⟩ : ∃ p y, A 0 0 = cos p * cos y ∧ A 1 0 = -(cos p * sin y) ∧ A 2 0 = sin p := by
    obtain ⟨p, hp1, hp2⟩ := circle_angle (√(A 0 0 ^ 2 + A 1 0 ^ 2)) (A 2 0) (by rw [Real.sq_sqrt (by positivity)]; exact hcol)
    by_cases hz : A 0 0 ^ 2 + A 1 0 ^ 2 = 0
    · have e0 : A 0 0 = 0 := by nlinarith [sq_nonneg (A 0 0), sq_nonneg (A 1 0)]
      have e1 : A 1 0 = 0 := by nlinarith [sq_nonneg (A 0 0), sq_nonneg (A 1 0)]
      rw [hz, Real.sqrt_zero] at hp1
      exact ⟨p, 0, by rw [e0, ← hp1, zero_mul], by rw [e1, ← hp1, zero_mul, neg_zero], hp2⟩
    · have hpos : 0 < √(A 0 0 ^ 2 + A 1 0 ^ 2) := Real.sqrt_pos.2 (lt_of_le_of_ne (by positivity) (Ne.symm hz))
      have hsq : √(A 0 0 ^ 2 + A 1 0 ^ 2) ^ 2 = A 0 0 ^ 2 + A 1 0 ^ 2 := Real.sq_sqrt (by positivity)
      obtain ⟨y, hy1, hy2⟩ := circle_angle (A 0 0 / √(A 0 0 ^ 2 + A 1 0 ^ 2)) (-A 1 0 / √(A 0 0 ^ 2 + A 1 0 ^ 2)) (by
        rw [div_pow, div_pow, hsq, neg_sq, ← add_div, div_self hz])
      refine ⟨p, y, ?_, ?_, hp2⟩
      · rw [← hp1, ← hy1]; field_simp
      · rw [← hp1, ← hy2]; field_simp
  -- what remains after undoing yaw and pitch leaves the x axis where it is
  obtain ⟨B, hB⟩ : ∃ B, B = (rotZ yaw * rotY pitch)ᵀ * A := ⟨_, rfl⟩
  have hZY : IsRotation (rotZ yaw * rotY pitch) := isRotation_mul (isRotation_rotZ _) (isRotation_rotY _)
  have hBr : IsRotation B := hB ▸ isRotation_mul ⟨by rw [transpose_transpose]; exact hZY.2.1, by rw [transpose_transpose]; exact hZY.1,
    by rw [det_transpose]; exact hZY.2.2⟩ hA
  have hAB : A = rotZ yaw * rotY pitch * B := by rw [hB, ← Matrix.mul_assoc, hZY.2.1, Matrix.one_mul]
  have sy := sin_sq_add_cos_sq yaw
  have sp := sin_sq_add_cos_sq pitch
  have b0 : B 0 0 = 1 := by
    rw [hB]
    simp [rotZ, rotY, Matrix.mul_apply, Fin.sum_univ_three, h0, h1, h2]
    linear_combination cos pitch ^ 2 * sy + sp
  obtain ⟨roll, hroll⟩ := fixes_x B hBr b0
  exact ⟨yaw, pitch, roll, by rw [hAB, hroll, rotationEuler]⟩

/-- The rotation taking x to y, y to z and z to x can be asked for. -/
example : ∃ yaw pitch roll, (!![0, 0, 1; 1, 0, 0; 0, 1, 0] : Matrix (Fin 3) (Fin 3) ℝ) = rotationEuler yaw pitch roll := by
  refine C151_all_rotations _ ⟨?_, ?_, ?_⟩
  · ext i j; fin_cases i <;> fin_cases j <;> simp [Matrix.mul_apply, Fin.sum_univ_three]
  · ext i j; fin_cases i <;> fin_cases j <;> simp [Matrix.mul_apply, Fin.sum_univ_three]
  · simp [det_fin_three]

/-- Any two rotations in succession are one. -/
theorem euler_closed (t1 t2 : ℝ × ℝ × ℝ) : ∃ t3 : ℝ × ℝ × ℝ,
    rotationEuler t1.1 t1.2.1 t1.2.2 * rotationEuler t2.1 t2.2.1 t2.2.2 = rotationEuler t3.1 t3.2.1 t3.2.2 := by
  obtain ⟨y, p, r, h⟩ := C151_all_rotations _ (isRotation_mul (C04_isRotation t1.1 t1.2.1 t1.2.2) (C04_isRotation t2.1 t2.2.1 t2.2.2))
  exact ⟨(y, p, r), h⟩

/-- **C151** The rotation matrices of the harmonics multiply like the rotations of space. -/
theorem C151_composition (N : ℕ) (hN : 1 ≤ N) (y1 p1 r1 y2 p2 r2 y3 p3 r3 : ℝ)
    (h : rotationEuler y1 p1 r1 * rotationEuler y2 p2 r2 = rotationEuler y3 p3 r3) :
    ∃ R1 R2 R3, shRotationMatrix N y1 p1 r1 .real = .ok ⟨(N + 1) ^ 2, (N + 1) ^ 2, R1⟩ ∧
      shRotationMatrix N y2 p2 r2 .real = .ok ⟨(N + 1) ^ 2, (N + 1) ^ 2, R2⟩ ∧
      shRotationMatrix N y3 p3 r3 .real = .ok ⟨(N + 1) ^ 2, (N + 1) ^ 2, R3⟩ ∧ R1 * R2 = R3 :=
  ⟨_, _, _, shRotationMatrix_eq N hN _ _ _, shRotationMatrix_eq N hN _ _ _, shRotationMatrix_eq N hN _ _ _,
    blockE_comp (y1, p1, r1) (y2, p2, r2) (y3, p3, r3) h⟩

example : ∃ R1 R2 R3, shRotationMatrix 4 1 2 0 .real = .ok ⟨(4 + 1) ^ 2, (4 + 1) ^ 2, R1⟩ ∧
      shRotationMatrix 4 0 0 3 .real = .ok ⟨(4 + 1) ^ 2, (4 + 1) ^ 2, R2⟩ ∧
      shRotationMatrix 4 1 2 3 .real = .ok ⟨(4 + 1) ^ 2, (4 + 1) ^ 2, R3⟩ ∧ R1 * R2 = R3 := by
  refine C151_composition 4 (by norm_num) 1 2 0 0 0 3 1 2 3 ?_
  obtain ⟨h, -⟩ := C04_axes 0 0 1 2 3
  obtain ⟨h', -, -, -, h0, -⟩ := C04_axes 0 0 1 2 0
  rw [h, h', h0, Matrix.mul_one]

/-- **C151** Any sequence of calls of `rotate_sh` has the effect of one call, whatever the signals. -/
theorem C151_sequence (N : ℕ) (hN : 1 ≤ N) (steps : List (ℝ × ℝ × ℝ)) : ∃ yaw pitch roll,
    rotationEuler yaw pitch roll = (steps.map fun t => rotationEuler t.1 t.2.1 t.2.2).reverse.prod ∧
    ∀ (B : ℕ) (F : Matrix (Fin B) (Fin ((N + 1) ^ 2)) ℝ),
      steps.foldlM (fun (G : NpMat) t => rotateSh G t.1 t.2.1 t.2.2 .real) ⟨B, (N + 1) ^ 2, F⟩
        = rotateSh ⟨B, (N + 1) ^ 2, F⟩ yaw pitch roll .real := by
  induction steps with
  | nil =>
    refine ⟨0, 0, 0, (C04_axes 0 0 0 0 0).2.2.2.2.1, fun B F => ?_⟩
    have := (shRotationMatrix_eq N hN 0 0 0).symm.trans (C20_identity N hN)
    have h1 : blockE (rotationEuler 0 0 0) ((N + 1) ^ 2) (N + 1) = 1 := eq_of_heq (NpMat.mk.inj (Except.ok.inj this)).2.2
    rw [rotateSh_eq N B hN, h1, transpose_one, Matrix.mul_one]
    rfl
  | cons t ts ih =>
    obtain ⟨y, p, r, hr, ih⟩ := ih
    obtain ⟨t3, h3⟩ := euler_closed (y, p, r) t
    refine ⟨t3.1, t3.2.1, t3.2.2, ?_, fun B F => ?_⟩
    · rw [← h3, List.map_cons, List.reverse_cons, List.prod_append, List.prod_singleton, ← hr]
    · rw [List.foldlM_cons, rotateSh_eq N B hN]
      change List.foldlM (fun (G : NpMat) t => rotateSh G t.1 t.2.1 t.2.2 .real) _ ts = _
      rw [ih, rotateSh_eq N B hN, rotateSh_eq N B hN, ← blockE_comp (N := N) (y, p, r) t t3 h3, transpose_mul, Matrix.mul_assoc]

example : ∃ yaw pitch roll, ∀ (B : ℕ) (F : Matrix (Fin B) (Fin ((2 + 1) ^ 2)) ℝ),
    [((1 : ℝ), (2 : ℝ), (3 : ℝ)), (4, 5, 6), (-1, 0, 7)].foldlM (fun (G : NpMat) t => rotateSh G t.1 t.2.1 t.2.2 .real) ⟨B, (2 + 1) ^ 2, F⟩
      = rotateSh ⟨B, (2 + 1) ^ 2, F⟩ yaw pitch roll .real := by
  obtain ⟨y, p, r, -, h⟩ := C151_sequence 2 (by norm_num) [((1 : ℝ), (2 : ℝ), (3 : ℝ)), (4, 5, 6), (-1, 0, 7)]
  exact ⟨y, p, r, h⟩

/-- **C151** A rotation is undone by turning back about its axes, yaw first. -/
theorem C151_undo (N B : ℕ) (hN : 1 ≤ N) (F : Matrix (Fin B) (Fin ((N + 1) ^ 2)) ℝ) (yaw pitch roll : ℝ) :
    [(yaw, pitch, roll), (-yaw, 0, 0), (0, -pitch, 0), (0, 0, -roll)].foldlM
      (fun (G : NpMat) t => rotateSh G t.1 t.2.1 t.2.2 .real) ⟨B, (N + 1) ^ 2, F⟩ = .ok ⟨B, (N + 1) ^ 2, F⟩ := by
  obtain ⟨y, p, r, hr, h⟩ := C151_sequence N hN [(yaw, pitch, roll), (-yaw, 0, 0), (0, -pitch, 0), (0, 0, -roll)]
  rw [h]
  obtain ⟨e, a1, -, -, e0, -⟩ := C04_axes (-yaw) yaw yaw pitch roll
  obtain ⟨-, -, a2, -, -⟩ := C04_axes (-pitch) pitch 0 0 0
  obtain ⟨-, -, -, a3, -⟩ := C04_axes (-roll) roll 0 0 0
  rw [neg_add_cancel, e0] at a1 a2 a3
  have hid : rotationEuler y p r = rotationEuler 0 0 0 := by
    rw [hr, e0]
    simp only [List.map_cons, List.map_nil, List.reverse_cons, List.reverse_nil, List.nil_append, List.cons_append, List.prod_cons, List.prod_nil, Matrix.mul_one, mul_one]
    rw [e, Matrix.mul_assoc (rotationEuler yaw 0 0), ← Matrix.mul_assoc (rotationEuler (-yaw) 0 0), a1, Matrix.one_mul,
      ← Matrix.mul_assoc (rotationEuler 0 (-pitch) 0), a2, Matrix.one_mul, a3]
  have h1 : shRotationMatrix N 0 0 0 .real = _ := C20_identity N hN
  have h2 := (shRotationMatrix_eq N hN 0 0 0).symm.trans h1
  have h3 : blockE (rotationEuler 0 0 0) ((N + 1) ^ 2) (N + 1) = 1 := eq_of_heq (NpMat.mk.inj (Except.ok.inj h2)).2.2
  rw [rotateSh_eq N B hN, hid, h3, transpose_one, Matrix.mul_one]

example : [((1 : ℝ), (2 : ℝ), (3 : ℝ)), (-1, 0, 0), (0, -2, 0), (0, 0, -3)].foldlM
      (fun (G : NpMat) t => rotateSh G t.1 t.2.1 t.2.2 .real) ⟨1, (1 + 1) ^ 2, fun _ => ![1, 2, 3, 4]⟩ = .ok ⟨1, (1 + 1) ^ 2, fun _ => ![1, 2, 3, 4]⟩ :=
  C151_undo 1 1 (by norm_num) (fun _ => ![1, 2, 3, 4]) 1 2 3

/-- The values of a turned expansion. -/
theorem turned_values {N : ℕ} (t : ℝ × ℝ × ℝ) (c : Fin ((N + 1) ^ 2) → ℝ) {a z a' z' : ℝ} (hz : z ∈ Set.Icc 0 π) (hz' : z' ∈ Set.Icc 0 π)
    (h : dirVec a' z' = (rotationEuler t.1 t.2.1 t.2.2).mulVec (dirVec a z)) :
    ∑ q, (blockE (rotationEuler t.1 t.2.1 t.2.2) ((N + 1) ^ 2) (N + 1)).mulVec c q * shVec N a' z' q = ∑ q, c q * shVec N a z q := by
  obtain ⟨R, hR, h1, h2⟩ : ∃ R, R = blockE (rotationEuler t.1 t.2.1 t.2.2) ((N + 1) ^ 2) (N + 1) ∧ R.transpose * R = 1 ∧ R.mulVec (shVec N a z) = shVec N a' z' := by
    refine ⟨_, rfl, ?_, blockE_shVec t hz hz' h⟩
    rcases Nat.eq_zero_or_pos N with rfl | hN
    · have e : blockE (rotationEuler t.1 t.2.1 t.2.2) ((0 + 1) ^ 2) (0 + 1) = 1 := by
        ext i j
        have hi : i = ⟨0, by norm_num⟩ := Fin.ext (by have := i.2; norm_num at this; simpa using this)
        have hj : j = ⟨0, by norm_num⟩ := Fin.ext (by have := j.2; norm_num at this; simpa using this)
        rw [hi, hj]
        simp [blockE, Rc, acnOrder]
      rw [e, transpose_one, Matrix.one_mul]
    · obtain ⟨R, hR, -, h1⟩ := C20_orthogonal N hN t.1 t.2.1 t.2.2
      rw [shRotationMatrix_eq N hN] at hR
      have hRe : blockE (rotationEuler t.1 t.2.1 t.2.2) ((N + 1) ^ 2) (N + 1) = R := eq_of_heq (NpMat.mk.inj (Except.ok.inj hR)).2.2
      rw [hRe, h1]
  rw [← hR, ← h2]
  change R.mulVec c ⬝ᵥ R.mulVec (shVec N a z) = c ⬝ᵥ shVec N a z
  rw [dotProduct_mulVec, ← mulVec_transpose, mulVec_mulVec, h1, one_mulVec]

/-- One row turned by `rotate_sh`. -/
theorem rotateSh_row {N : ℕ} (hN : 1 ≤ N) (t : ℝ × ℝ × ℝ) (c c' : Fin ((N + 1) ^ 2) → ℝ) :
    rotateSh ⟨1, (N + 1) ^ 2, fun _ => c⟩ t.1 t.2.1 t.2.2 .real = .ok ⟨1, (N + 1) ^ 2, fun _ => c'⟩
      ↔ c' = (blockE (rotationEuler t.1 t.2.1 t.2.2) ((N + 1) ^ 2) (N + 1)).mulVec c := by
  have hb : rotateSh ⟨1, (N + 1) ^ 2, fun _ => c⟩ t.1 t.2.1 t.2.2 .real
      = .ok ⟨1, (N + 1) ^ 2, fun _ => (blockE (rotationEuler t.1 t.2.1 t.2.2) ((N + 1) ^ 2) (N + 1)).mulVec c⟩ := by
    refine (rotateSh_eq N 1 hN t.1 t.2.1 t.2.2 (fun _ => c)).trans ?_
    congr 2
    funext i q
    refine Matrix.mul_apply.trans (Finset.sum_congr rfl fun k _ => ?_)
    exact mul_comm _ _
  constructor
  · intro h
    have hm := eq_of_heq (NpMat.mk.inj (Except.ok.inj (h.symm.trans hb))).2.2
    exact congrFun hm 0
  · rintro rfl
    exact hb

/-- **C151** The product of turned functions is the turned product (a factor of order zero is a constant, which no rotation
changes). -/
theorem C151_product (design : ℕ → Σ Q : ℕ, (Fin Q → ℝ) × (Fin Q → ℝ)) {N1 N2 : ℕ} (hN1 : 1 ≤ N1) (hle : N1 + N2 ≤ 10)
    (hd : IsTDesign (2 * (N1 + N2)) (design (2 * (N1 + N2))).2.1 (design (2 * (N1 + N2))).2.2) (yaw pitch roll : ℝ)
    (a a' : Fin ((N1 + 1) ^ 2) → ℝ) (b b' : Fin ((N2 + 1) ^ 2) → ℝ)
    (ha : rotateSh ⟨1, (N1 + 1) ^ 2, fun _ => a⟩ yaw pitch roll .real = .ok ⟨1, (N1 + 1) ^ 2, fun _ => a'⟩)
    (hb : N2 = 0 ∧ b' = b ∨ 1 ≤ N2 ∧ rotateSh ⟨1, (N2 + 1) ^ 2, fun _ => b⟩ yaw pitch roll .real = .ok ⟨1, (N2 + 1) ^ 2, fun _ => b'⟩) :
    ∃ c c' : Fin ((N1 + N2 + 1) ^ 2) → ℝ, shMult design a b = .ok ⟨_, c⟩ ∧ shMult design a' b' = .ok ⟨_, c'⟩ ∧
      rotateSh ⟨1, (N1 + N2 + 1) ^ 2, fun _ => c⟩ yaw pitch roll .real = .ok ⟨1, (N1 + N2 + 1) ^ 2, fun _ => c'⟩ := by
  obtain ⟨t, ht⟩ : ∃ t : ℝ × ℝ × ℝ, t = (yaw, pitch, roll) := ⟨_, rfl⟩
  obtain ⟨c, hc, hcv⟩ := C25_product design a b (N1 := N1) (N2 := N2) le_rfl (by nlinarith) le_rfl (by nlinarith) (by omega) hle hd
  obtain ⟨c', hc', hcv'⟩ := C25_product design a' b' (N1 := N1) (N2 := N2) le_rfl (by nlinarith) le_rfl (by nlinarith) (by omega) hle hd
  refine ⟨c, c', hc, hc', (rotateSh_row (by omega) (yaw, pitch, roll) c c').2 ?_⟩
  have ha := (rotateSh_row hN1 (yaw, pitch, roll) a a').1 ha
  have hva : ∀ az z az' z', z ∈ Set.Icc 0 π → z' ∈ Set.Icc 0 π → dirVec az' z' = (rotationEuler yaw pitch roll).mulVec (dirVec az z) →
      ∑ q, a' q * shVec N1 az' z' q = ∑ q, a q * shVec N1 az z q := by
    intro az z az' z' hz hz' h
    rw [ha]
    exact turned_values (yaw, pitch, roll) a hz hz' h
  have hvb : ∀ az z az' z', z ∈ Set.Icc 0 π → z' ∈ Set.Icc 0 π → dirVec az' z' = (rotationEuler yaw pitch roll).mulVec (dirVec az z) →
      ∑ q, b' q * shVec N2 az' z' q = ∑ q, b q * shVec N2 az z q := by
    intro az z az' z' hz hz' h
    rcases hb with ⟨rfl, rfl⟩ | ⟨h2, hb⟩
    · refine Finset.sum_congr rfl fun q _ => ?_
      have hq : q = ⟨0, by norm_num⟩ := Fin.ext (by have := q.2; norm_num at this; simpa using this)
      rw [hq]
      have := congrFun (blockE_shVec (N := 0) (yaw, pitch, roll) hz hz' h) ⟨0, by norm_num⟩
      rw [← this]
      congr 1
      simp [Matrix.mulVec, dotProduct, blockE, Rc, acnOrder]
    · rw [(rotateSh_row h2 (yaw, pitch, roll) b b').1 hb]
      exact turned_values (yaw, pitch, roll) b hz hz' h
  -- both sides are expansions of the same function
  refine expansion_unique _ _ fun az' z' hz' => ?_
  obtain ⟨t', ht'⟩ := C151_all_rotations (rotationEuler yaw pitch roll)ᵀ
    (by obtain ⟨h1, h2, h3⟩ := C04_isRotation yaw pitch roll; exact ⟨by rw [transpose_transpose, h2], by rw [transpose_transpose, h1], by rw [det_transpose, h3]⟩)
  obtain ⟨p', r', ht'⟩ := ht'
  obtain ⟨az, z, hz, hdir⟩ := turned_dir (t', p', r') az' z'
  have hback : dirVec az' z' = (rotationEuler yaw pitch roll).mulVec (dirVec az z) := by
    rw [hdir]
    change _ = (rotationEuler yaw pitch roll).mulVec ((rotationEuler t' p' r').mulVec _)
    rw [← ht', mulVec_mulVec, (C04_isRotation yaw pitch roll).2.1, one_mulVec]
  rw [turned_values (yaw, pitch, roll) c hz hz' hback, hcv, hcv']
  exact congrArg₂ (· * ·) (hva az z az' z' hz hz' hback) (hvb az z az' z' hz hz' hback)

/-- A first order function times a constant, turned by a quarter. -/
example : ∃ (azi zen : Fin 8 → ℝ) (a' : Fin 4 → ℝ) (c c' : Fin 4 → ℝ), shMult (fun _ => ⟨8, azi, zen⟩) ![1, 2, 3, 4] ![5] = .ok ⟨4, c⟩ ∧
    shMult (fun _ => ⟨8, azi, zen⟩) a' ![5] = .ok ⟨4, c'⟩ ∧
    rotateSh ⟨1, 4, fun _ => c⟩ (π / 2) 0 0 .real = .ok ⟨1, 4, fun _ => c'⟩ := by
  obtain ⟨azi, zen, hd⟩ := cube_design
  have hd2 : IsTDesign (2 * (1 + 0)) azi zen := ⟨hd.pos, hd.zenith, fun p hp => hd.exact p (by omega)⟩
  obtain ⟨c, c', h⟩ := C151_product (N1 := 1) (N2 := 0) (fun _ => ⟨8, azi, zen⟩) le_rfl (by norm_num) hd2 (π / 2) 0 0 ![1, 2, 3, 4] _ ![5] ![5]
    ((rotateSh_row le_rfl (π / 2, 0, 0) ![1, 2, 3, 4] _).2 rfl) (.inl ⟨rfl, rfl⟩)
  exact ⟨azi, zen, _, c, c', h⟩

end Verif.Props
