import Verif.Props.RotationGroup
import Verif.Props.Mirror
import Verif.Props.ShFormats

/-! Processing of Ambisonic signals that does not care about the orientation of the scene: C170. -/

namespace Verif.Props
open Real Matrix Verif.Utils Verif.Decoder Verif.Sph Verif.Solid Verif.Grids

theorem blockE_orders (r : Mat3) (N : ℕ) (w : ℕ → ℝ) :
    Matrix.diagonal (repVec N w) * blockE r ((N + 1) ^ 2) (N + 1) = blockE r ((N + 1) ^ 2) (N + 1) * Matrix.diagonal (repVec N w) := by
  ext i j
  rw [Matrix.diagonal_mul, Matrix.mul_diagonal]
  unfold blockE repVec
  by_cases h : acnOrder i = acnOrder j
  · rw [h, mul_comm]
  · rw [if_neg (fun hc => h hc.1)]; ring

theorem sum_turns {N : ℕ} {m : ℤ} (n : ℕ) (hm : |m| ≤ (N : ℤ)) (a z : ℝ) :
    ∑ k ∈ Finset.range (N + 1), realSH n m (a + k * (2 * π / (N + 1 : ℕ))) z = if m = 0 then (N + 1 : ℕ) * realSH n m a z else 0 := by
  obtain ⟨K, hK⟩ := realSH_trig n m
  have hlt : |(m.natAbs : ℤ)| < (N + 1 : ℕ) := by rw [Nat.abs_cast, Int.natCast_natAbs]; push_cast; omega
  have hc := sum_cos_equi hlt
  have hs := sum_sin_equi hlt
  simp only [hK, Int.cast_natCast] at hc hs ⊢
  rw [← Finset.mul_sum]
  by_cases h0 : m = 0
  · subst h0; simp; ring
  · rw [if_neg h0]
    rw [if_neg (by simpa using h0)] at hc
    have e : ∑ k ∈ Finset.range (N + 1), (if m < 0 then sin (m.natAbs * (a + k * (2 * π / (N + 1 : ℕ)))) else cos (m.natAbs * (a + k * (2 * π / (N + 1 : ℕ))))) = 0 := by
      by_cases hneg : m < 0
      · simp only [if_pos hneg, mul_add, sin_add, Finset.sum_add_distrib, ← Finset.mul_sum, hc, hs, mul_zero, add_zero]
      · simp only [if_neg hneg, mul_add, cos_add, Finset.sum_sub_distrib, ← Finset.mul_sum, hc, hs, mul_zero, sub_zero]
    rw [e, mul_zero]

theorem yaw_dir (α a z : ℝ) : dirVec (a + α) z = (rotationEuler (-α) 0 0).mulVec (dirVec a z) := by
  have h : rotationEuler (-α) 0 0 = !![cos α, -sin α, 0; sin α, cos α, 0; 0, 0, 1] := by
    unfold rotationEuler rotX rotY rotZ
    ext i j
    fin_cases i <;> fin_cases j <;> simp [Matrix.mul_apply, Fin.sum_univ_three]
  rw [h]
  funext c
  fin_cases c <;> simp [dirVec, Matrix.mulVec, dotProduct, Fin.sum_univ_three, cos_add, sin_add] <;> ring

theorem pole_dir (a z : ℝ) : dirVec a z = (rotationEuler (-a) (-z) 0).mulVec (dirVec 0 0) := by
  unfold rotationEuler rotX rotY rotZ
  funext c
  fin_cases c <;> simp [dirVec, Matrix.mulVec, dotProduct, Fin.sum_univ_three, Matrix.mul_apply]

theorem shVec_pole (N : ℕ) (q : Fin ((N + 1) ^ 2)) : shVec N 0 0 q = if acnDegree q = 0 then √((2 * acnOrder q + 1) / (4 * π)) else 0 := by
  show realSH (acnOrder q) (acnDegree q) 0 0 = _
  rw [realSH_dir _ _ _ _ ⟨le_rfl, pi_pos.le⟩]
  simp only [dirVec, Matrix.cons_val_zero, Matrix.cons_val_one, Matrix.cons_val, sin_zero, cos_zero, mul_zero, harm_pole]
  split_ifs <;> simp

theorem degree_zero {q : ℕ} (h : acnDegree q = 0) : q = acnOrder q ^ 2 + acnOrder q := by
  unfold acnDegree at h
  have : (q : ℤ) = (acnOrder q : ℤ) ^ 2 + acnOrder q := by linarith
  exact_mod_cast this

theorem blockE_unturn {N : ℕ} (hN : 1 ≤ N) (t : ℝ × ℝ × ℝ) : (blockE (rotationEuler t.1 t.2.1 t.2.2) ((N + 1) ^ 2) (N + 1)).transpose * blockE (rotationEuler t.1 t.2.1 t.2.2) ((N + 1) ^ 2) (N + 1) = 1 := by
  obtain ⟨R, h1, -, h2⟩ := C20_orthogonal N hN t.1 t.2.1 t.2.2
  rw [shRotationMatrix_eq N hN] at h1
  rw [eq_of_heq (NpMat.mk.inj (Except.ok.inj h1)).2.2]
  exact h2

/-- Coefficients that every turn about the vertical axis keeps are those of the zonal harmonics. -/
theorem zonal_of_turns {N : ℕ} (hN : 1 ≤ N) (c : Fin ((N + 1) ^ 2) → ℝ) (hc : ∀ α : ℝ, (blockE (rotationEuler α 0 0) ((N + 1) ^ 2) (N + 1)).mulVec c = c) (q : Fin ((N + 1) ^ 2)) (hq : acnDegree q ≠ 0) : c q = 0 := by
  have inv : ∀ α a, ∀ z ∈ Set.Icc 0 π, ∑ q, c q * shVec N (a + α) z q = ∑ q, c q * shVec N a z q := by
    intro α a z hz
    have e := blockE_shVec (N := N) (-α, 0, 0) hz hz (yaw_dir α a z)
    have o := blockE_unturn hN (-α, 0, 0)
    simp only at e o
    show c ⬝ᵥ shVec N (a + α) z = c ⬝ᵥ shVec N a z
    calc c ⬝ᵥ shVec N (a + α) z = (blockE (rotationEuler (-α) 0 0) ((N + 1) ^ 2) (N + 1)).mulVec c ⬝ᵥ (blockE (rotationEuler (-α) 0 0) ((N + 1) ^ 2) (N + 1)).mulVec (shVec N a z) := by rw [hc, e]
      _ = _ := by rw [Matrix.dotProduct_mulVec, Matrix.vecMul_mulVec, o, Matrix.vecMul_one]
  have key := expansion_unique (fun q => ((N + 1 : ℕ) : ℝ) * c q) (fun q => if acnDegree q = 0 then ((N + 1 : ℕ) : ℝ) * c q else 0) fun a z hz => by
    calc ∑ q, ((N + 1 : ℕ) : ℝ) * c q * shVec N a z q = ∑ k ∈ Finset.range (N + 1), ∑ q, c q * shVec N (a + k * (2 * π / (N + 1 : ℕ))) z q := by
          rw [Finset.sum_congr rfl fun (k : ℕ) _ => inv (k * (2 * π / (N + 1 : ℕ))) a z hz, Finset.sum_const, Finset.card_range, nsmul_eq_mul, Finset.mul_sum]
          exact Finset.sum_congr rfl fun q _ => mul_assoc _ _ _
      _ = ∑ q, c q * ∑ k ∈ Finset.range (N + 1), shVec N (a + k * (2 * π / (N + 1 : ℕ))) z q := by
          rw [Finset.sum_comm]
          exact Finset.sum_congr rfl fun q _ => (Finset.mul_sum _ _ _).symm
      _ = _ := by
          refine Finset.sum_congr rfl fun q _ => ?_
          have hm : |acnDegree q| ≤ (N : ℤ) := (acnDegree_abs q).trans (by exact_mod_cast acnOrder_le q.2)
          have := sum_turns (acnOrder q) hm a z
          change c q * ∑ k ∈ Finset.range (N + 1), realSH (acnOrder q) (acnDegree q) (a + k * (2 * π / (N + 1 : ℕ))) z = _
          rw [this]
          by_cases h0 : acnDegree q = 0
          · rw [if_pos h0, if_pos h0]
            show _ = _ * realSH (acnOrder q) (acnDegree q) a z
            ring
          · rw [if_neg h0, if_neg h0]; ring
  have h := congrFun key q
  simp only [if_neg hq] at h
  exact (mul_eq_zero.1 h).resolve_left (by positivity)

/-- A matrix that commutes with all rotations of the harmonics weights the orders. -/
theorem commuting_weights {N : ℕ} (hN : 1 ≤ N) (A : Matrix (Fin ((N + 1) ^ 2)) (Fin ((N + 1) ^ 2)) ℝ)
    (h : ∀ y p r : ℝ, A * blockE (rotationEuler y p r) ((N + 1) ^ 2) (N + 1) = blockE (rotationEuler y p r) ((N + 1) ^ 2) (N + 1) * A) :
    ∃ w : ℕ → ℝ, A = Matrix.diagonal (repVec N w) := by
  obtain ⟨c, hc⟩ : ∃ c, c = A.mulVec (shVec N 0 0) := ⟨_, rfl⟩
  have hz0 : (0 : ℝ) ∈ Set.Icc 0 π := ⟨le_rfl, pi_pos.le⟩
  have zon := zonal_of_turns hN c (fun α => by
    have e := blockE_shVec (N := N) (a := 0) (a' := 0) (α, 0, 0) hz0 hz0 (by
      have := yaw_dir (-α) 0 0
      rw [neg_neg] at this
      rw [← this]
      simp [dirVec])
    simp only at e
    rw [hc, Matrix.mulVec_mulVec, ← h, ← Matrix.mulVec_mulVec, e])
  refine ⟨fun n => (if hn : n ^ 2 + n < (N + 1) ^ 2 then c ⟨n ^ 2 + n, hn⟩ else 0) / √((2 * n + 1) / (4 * π)), ?_⟩
  obtain ⟨w, hw⟩ : ∃ w : ℕ → ℝ, w = fun n => (if hn : n ^ 2 + n < (N + 1) ^ 2 then c ⟨n ^ 2 + n, hn⟩ else 0) / √((2 * n + 1) / (4 * π)) := ⟨_, rfl⟩
  rw [← hw]
  have base : A.mulVec (shVec N 0 0) = (Matrix.diagonal (repVec N w)).mulVec (shVec N 0 0) := by
    rw [← hc]
    funext q
    rw [Matrix.mulVec_diagonal, shVec_pole]
    by_cases h0 : acnDegree q = 0
    · have hpos : (0 : ℝ) < √((2 * acnOrder q + 1) / (4 * π)) := Real.sqrt_pos.2 (by positivity)
      have hq := degree_zero h0
      have hlt : acnOrder q ^ 2 + acnOrder q < (N + 1) ^ 2 := hq ▸ q.2
      rw [if_pos h0]
      show _ = w (acnOrder q) * _
      rw [hw]
      simp only
      rw [dif_pos hlt, div_mul_cancel₀ _ hpos.ne']
      congr 1
      exact Fin.ext hq
    · rw [if_neg h0, mul_zero, zon q h0]
  refine matrix_unique _ _ fun a z hz => ?_
  have e := blockE_shVec (N := N) (-a, -z, 0) hz0 hz (pole_dir a z)
  simp only at e
  rw [← e, Matrix.mulVec_mulVec, Matrix.mulVec_mulVec, h, blockE_orders, ← Matrix.mulVec_mulVec, ← Matrix.mulVec_mulVec, base]

/-- **C170** Weights per order (`repeat_per_order`: max-rE weights, modal patterns, changes of normalisation) can be applied before or after `rotate_sh`. -/
theorem C170_weights {N B : ℕ} (hN : 1 ≤ N) (yaw pitch roll : ℝ) (F : Matrix (Fin B) (Fin ((N + 1) ^ 2)) ℝ) :
    (∀ w : Fin (N + 1) → ℝ, ∃ G : Matrix (Fin B) (Fin ((N + 1) ^ 2)) ℝ, rotateSh ⟨B, (N + 1) ^ 2, F⟩ yaw pitch roll .real = .ok ⟨B, (N + 1) ^ 2, G⟩ ∧
      rotateSh ⟨B, (N + 1) ^ 2, fun b q => (repeatPerOrder (List.ofFn w)).getD q 0 * F b q⟩ yaw pitch roll .real = .ok ⟨B, (N + 1) ^ 2, fun b q => (repeatPerOrder (List.ofFn w)).getD q 0 * G b q⟩) ∧
    (n3dToSn3d ⟨B, (N + 1) ^ 2, F⟩ true).bind (rotateSh · yaw pitch roll .real) = (rotateSh ⟨B, (N + 1) ^ 2, F⟩ yaw pitch roll .real).bind (n3dToSn3d · true) ∧
    (sn3dToN3d ⟨B, (N + 1) ^ 2, F⟩ true).bind (rotateSh · yaw pitch roll .real) = (rotateSh ⟨B, (N + 1) ^ 2, F⟩ yaw pitch roll .real).bind (sn3dToN3d · true) := by
  have key : ∀ c : ℕ → ℝ, rotateSh ⟨B, (N + 1) ^ 2, fun b q => c (acnOrder q) * F b q⟩ yaw pitch roll .real
      = .ok ⟨B, (N + 1) ^ 2, fun b q => c (acnOrder q) * (F * (blockE (rotationEuler yaw pitch roll) ((N + 1) ^ 2) (N + 1)).transpose : Matrix (Fin B) (Fin ((N + 1) ^ 2)) ℝ) b q⟩ := by
    intro c
    have e1 : (fun (b : Fin B) (q : Fin ((N + 1) ^ 2)) => c (acnOrder q) * F b q) = F * Matrix.diagonal (repVec N c) := by
      ext b q; rw [Matrix.mul_diagonal, mul_comm]; rfl
    have e2 := congrArg Matrix.transpose (blockE_orders (rotationEuler yaw pitch roll) N c)
    rw [Matrix.transpose_mul, Matrix.transpose_mul, Matrix.diagonal_transpose] at e2
    rw [e1, rotateSh_eq N B hN, Matrix.mul_assoc, ← e2, ← Matrix.mul_assoc]
    congr 2
    ext b q
    rw [Matrix.mul_diagonal, mul_comm]; rfl
  have scale : ∀ c : ℕ → ℝ, (scalePerOrder c ⟨B, (N + 1) ^ 2, F⟩ true).bind (rotateSh · yaw pitch roll .real) = (rotateSh ⟨B, (N + 1) ^ 2, F⟩ yaw pitch roll .real).bind (scalePerOrder c · true) := by
    intro c
    rw [scalePerOrder_cols, rotateSh_eq N B hN]
    show rotateSh _ yaw pitch roll .real = scalePerOrder c _ true
    rw [scalePerOrder_cols, key]
  refine ⟨fun w => ⟨_, rotateSh_eq N B hN yaw pitch roll F, ?_⟩, scale _, scale _⟩
  obtain ⟨c, hc⟩ : ∃ c : ℕ → ℝ, c = fun n => if h : n < N + 1 then w ⟨n, h⟩ else 0 := ⟨_, rfl⟩
  have hl : List.ofFn w = (List.range (N + 1)).map c := by
    apply List.ext_getElem
    · simp
    · intro i h1 h2
      have : i < N + 1 := by simpa using h1
      rw [List.getElem_ofFn, List.getElem_map, List.getElem_range, hc]
      show w _ = dite _ _ _
      rw [dif_pos this]
  have hw : ∀ q : Fin ((N + 1) ^ 2), (repeatPerOrder (List.ofFn w)).getD q 0 = c (acnOrder q) := by
    intro q
    rw [hl, C10_repeatPerOrder_vector, List.getD_eq_getElem _ _ (by simp)]
    simp [repVec]
  simp only [hw]
  exact key c

/-- First order with a weakened velocity. -/
example (F : Matrix (Fin 2) (Fin ((1 + 1) ^ 2)) ℝ) : ∃ G : Matrix (Fin 2) (Fin ((1 + 1) ^ 2)) ℝ, rotateSh ⟨2, (1 + 1) ^ 2, F⟩ 1 2 3 .real = .ok ⟨2, (1 + 1) ^ 2, G⟩ ∧
    rotateSh ⟨2, (1 + 1) ^ 2, fun b q => (repeatPerOrder (List.ofFn ![1, 1 / 2])).getD q 0 * F b q⟩ 1 2 3 .real = .ok ⟨2, (1 + 1) ^ 2, fun b q => (repeatPerOrder (List.ofFn ![1, 1 / 2])).getD q 0 * G b q⟩ :=
  (C170_weights le_rfl 1 2 3 F).1 ![1, 1 / 2]

/-- **C170** Nothing else can: a linear processing of the channels that gives the same before and after every rotation is a weight per order. -/
theorem C170_nothing_else {N : ℕ} (hN : 1 ≤ N) (M : Matrix (Fin ((N + 1) ^ 2)) (Fin ((N + 1) ^ 2)) ℝ) :
    (∀ (yaw pitch roll : ℝ) (F G : Matrix (Fin 1) (Fin ((N + 1) ^ 2)) ℝ), rotateSh ⟨1, (N + 1) ^ 2, F⟩ yaw pitch roll .real = .ok ⟨1, (N + 1) ^ 2, G⟩ →
      rotateSh ⟨1, (N + 1) ^ 2, F * M⟩ yaw pitch roll .real = .ok ⟨1, (N + 1) ^ 2, G * M⟩) ↔
    ∃ w : Fin (N + 1) → ℝ, ∀ (F : Matrix (Fin 1) (Fin ((N + 1) ^ 2)) ℝ) (q : Fin ((N + 1) ^ 2)), (F * M) 0 q = (repeatPerOrder (List.ofFn w)).getD q 0 * F 0 q := by
  constructor
  · intro h
    obtain ⟨w, hw⟩ := commuting_weights hN M.transpose (fun y p r => by
      have hT : M * (blockE (rotationEuler y p r) ((N + 1) ^ 2) (N + 1)).transpose = (blockE (rotationEuler y p r) ((N + 1) ^ 2) (N + 1)).transpose * M := by
        ext i j
        have := h y p r (Matrix.of fun _ k => if k = i then 1 else 0) _ (rotateSh_eq N 1 hN y p r _)
        rw [rotateSh_eq N 1 hN] at this
        have e := congrFun (congrFun (eq_of_heq (NpMat.mk.inj (Except.ok.inj this)).2.2) 0) j
        rw [Matrix.mul_assoc, Matrix.mul_assoc] at e
        have single : ∀ X : Matrix (Fin ((N + 1) ^ 2)) (Fin ((N + 1) ^ 2)) ℝ, ((Matrix.of fun (_ : Fin 1) k => if k = i then (1 : ℝ) else 0) * X) 0 j = X i j := by
          intro X; simp [Matrix.mul_apply]
        rwa [single, single] at e
      have := congrArg Matrix.transpose hT
      rw [Matrix.transpose_mul, Matrix.transpose_mul, Matrix.transpose_transpose] at this
      exact this.symm)
    refine ⟨fun n => w n, fun F q => ?_⟩
    have hM : M = Matrix.diagonal (repVec N w) := by
      rw [← Matrix.transpose_transpose M, hw, Matrix.diagonal_transpose]
    have hl : List.ofFn (fun n : Fin (N + 1) => w n) = (List.range (N + 1)).map w := by
      apply List.ext_getElem
      · simp
      · intro i h1 h2
        rw [List.getElem_ofFn, List.getElem_map, List.getElem_range]
    rw [hM, Matrix.mul_diagonal, mul_comm, hl, C10_repeatPerOrder_vector, List.getD_eq_getElem _ _ (by simp)]
    simp
  · rintro ⟨w, hw⟩ yaw pitch roll F G hG
    obtain ⟨G', h1, h2⟩ := (C170_weights hN yaw pitch roll F).1 w
    rw [hG] at h1
    have hGG : G = G' := eq_of_heq (NpMat.mk.inj (Except.ok.inj h1)).2.2
    have e : ∀ X : Matrix (Fin 1) (Fin ((N + 1) ^ 2)) ℝ, X * M = fun (b : Fin 1) (q : Fin ((N + 1) ^ 2)) => (repeatPerOrder (List.ofFn w)).getD q 0 * X b q := by
      intro X
      ext b q
      rw [Subsingleton.elim b 0]
      exact hw X q
    subst hGG
    exact (congrArg (fun V : Matrix (Fin 1) (Fin ((N + 1) ^ 2)) ℝ => rotateSh ⟨1, (N + 1) ^ 2, V⟩ yaw pitch roll .real) (e F)).trans
      (h2.trans (congrArg (fun V : Matrix (Fin 1) (Fin ((N + 1) ^ 2)) ℝ => (.ok ⟨1, (N + 1) ^ 2, V⟩ : Py NpMat)) (e G).symm))

/-- First order channels with the second one doubled. -/
noncomputable def loudY : Matrix (Fin ((1 + 1) ^ 2)) (Fin ((1 + 1) ^ 2)) ℝ := Matrix.diagonal fun q => if (q : ℕ) = 1 then 2 else 1

/-- Raising one of the velocity channels alone is not one of them. -/
example : ∃ (yaw pitch roll : ℝ) (F G : Matrix (Fin 1) (Fin ((1 + 1) ^ 2)) ℝ), rotateSh ⟨1, (1 + 1) ^ 2, F⟩ yaw pitch roll .real = .ok ⟨1, (1 + 1) ^ 2, G⟩ ∧
    rotateSh ⟨1, (1 + 1) ^ 2, F * loudY⟩ yaw pitch roll .real ≠ .ok ⟨1, (1 + 1) ^ 2, G * loudY⟩ := by
  by_contra hn
  push Not at hn
  obtain ⟨w, hw⟩ := (C170_nothing_else le_rfl loudY).1 hn
  have h1 := hw (Matrix.of fun _ _ => 1) ⟨1, by norm_num⟩
  have h2 := hw (Matrix.of fun _ _ => 1) ⟨2, by norm_num⟩
  rw [loudY, Matrix.mul_diagonal] at h1 h2
  simp [repeatPerOrder, List.zipIdx, List.replicate] at h1 h2
  linarith

end Verif.Props
