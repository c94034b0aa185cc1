import Verif.Proofs.SphRot

/-!
Blocks and assembly of the SH rotation matrix.
-/

namespace Verif.Sph
open Real Verif.Solid

/-- The coefficients the recursion computes. -/
noncomputable def Rc (r : Matrix (Fin 3) (Fin 3) ℝ) : ℕ → ℤ → ℤ → ℝ
  | 0 => fun _ _ => 1
  | 1 => fun a b => r (ax a) (ax b)
  | k + 2 => fun m n => rowComb (k + 2) m (pP r (k + 1) (Rc r (k + 1)) n) / √(rotDen (k + 2) n)

theorem rotRec_Rc (r : Matrix (Fin 3) (Fin 3) ℝ) : RotRec r (Rc r) where
  one := by
    intro i j
    fin_cases i <;> fin_cases j <;> rfl
  mid := by
    intro l hl m hm n hn
    obtain ⟨k, rfl⟩ : ∃ k, l = k + 1 := ⟨l - 1, by omega⟩
    rw [mem_I] at hm hn
    have hn' : |n| ≤ ((k + 2 : ℕ) : ℤ) := by push_cast at hn ⊢; omega
    have hd := rotDen_pos (k + 2) (by omega) n hn'
    have hne : ¬ |n| = ((k + 2 : ℕ) : ℤ) := by push_cast at hn ⊢; omega
    have hU : √(rotDen (k + 2) n) = rowU (k + 2) n := by
      unfold rotDen rowU; rw [if_neg hne]
    have hp : pP r (k + 1) (Rc r (k + 1)) n = fun i a => r i 2 * Rc r (k + 1) a n := by
      funext i a
      unfold pP
      rw [abs_le] at hn
      rw [if_neg (by push_cast at hn ⊢; omega), if_neg (by push_cast at hn ⊢; omega)]
    have h0 := (Real.sqrt_pos.2 hd).ne'
    show rowComb (k + 2) m (pP r (k + 1) (Rc r (k + 1)) n) / √(rotDen (k + 2) n) * rowU (k + 2) n = _
    rw [← hU, div_mul_cancel₀ _ h0, hp]
  top := by
    intro l hl m hm
    obtain ⟨k, rfl⟩ : ∃ k, l = k + 1 := ⟨l - 1, by omega⟩
    have habs : |((k + 1 : ℕ) : ℤ) + 1| = ((k + 2 : ℕ) : ℤ) := by
      rw [abs_of_nonneg (by omega)]; push_cast; ring
    have hd := rotDen_pos (k + 2) (by omega) (((k + 1 : ℕ) : ℤ) + 1) (by rw [habs])
    have hU : rotDen (k + 2) (((k + 1 : ℕ) : ℤ) + 1)
        = (2 * ((k + 1 : ℕ) : ℝ) + 1) * (2 * ((k + 1 : ℕ) : ℝ) + 2) := by
      unfold rotDen; rw [if_pos habs]; push_cast; ring
    have hp : pP r (k + 1) (Rc r (k + 1)) (((k + 1 : ℕ) : ℤ) + 1)
        = fun i a => r i 0 * Rc r (k + 1) a ((k + 1 : ℕ) : ℤ) - r i 1 * Rc r (k + 1) a (-((k + 1 : ℕ) : ℤ)) := by
      funext i a
      unfold pP
      rw [if_neg (by omega), if_pos rfl]
    have h0 := (Real.sqrt_pos.2 hd).ne'
    show rowComb (k + 2) m (pP r (k + 1) (Rc r (k + 1)) (((k + 1 : ℕ) : ℤ) + 1))
      / √(rotDen (k + 2) (((k + 1 : ℕ) : ℤ) + 1)) * _ = _
    rw [← hU, div_mul_cancel₀ _ h0, hp]
  bot := by
    intro l hl m hm
    obtain ⟨k, rfl⟩ : ∃ k, l = k + 1 := ⟨l - 1, by omega⟩
    have habs : |-(((k + 1 : ℕ) : ℤ) + 1)| = ((k + 2 : ℕ) : ℤ) := by
      rw [abs_neg, abs_of_nonneg (by omega)]; push_cast; ring
    have hd := rotDen_pos (k + 2) (by omega) (-(((k + 1 : ℕ) : ℤ) + 1)) (by rw [habs])
    have hU : rotDen (k + 2) (-(((k + 1 : ℕ) : ℤ) + 1))
        = (2 * ((k + 1 : ℕ) : ℝ) + 1) * (2 * ((k + 1 : ℕ) : ℝ) + 2) := by
      unfold rotDen; rw [if_pos habs]; push_cast; ring
    have hp : pP r (k + 1) (Rc r (k + 1)) (-(((k + 1 : ℕ) : ℤ) + 1))
        = fun i a => r i 0 * Rc r (k + 1) a (-((k + 1 : ℕ) : ℤ)) + r i 1 * Rc r (k + 1) a ((k + 1 : ℕ) : ℤ) := by
      funext i a
      unfold pP
      rw [if_pos rfl]
    have h0 := (Real.sqrt_pos.2 hd).ne'
    show rowComb (k + 2) m (pP r (k + 1) (Rc r (k + 1)) (-(((k + 1 : ℕ) : ℤ) + 1)))
      / √(rotDen (k + 2) (-(((k + 1 : ℕ) : ℤ) + 1))) * _ = _
    rw [← hU, div_mul_cancel₀ _ h0, hp]

theorem mapM_ok {α β : Type _} (f : α → Py β) (g : α → β) : ∀ l : List α, (∀ x ∈ l, f x = .ok (g x)) →
    l.mapM f = .ok (l.map g)
  | [], _ => rfl
  | a :: l, h => by
    rw [List.mapM_cons, h a (by simp), mapM_ok f g l (fun x hx => h x (by simp [hx]))]; rfl

theorem rotBlock_eq (r : Matrix (Fin 3) (Fin 3) ℝ) (k : ℕ) :
    rotBlock (k + 2) (rotR1 r) (tab (k + 1) (Rc r (k + 1))) = .ok (tab (k + 2) (Rc r (k + 2))) := by
  unfold rotBlock
  rw [mapM_ok _ (fun (i : ℕ) => (List.range (2 * (k + 2) + 1)).map fun (j : ℕ) =>
    Rc r (k + 2) ((i : ℤ) - (k + 2 : ℕ)) ((j : ℤ) - (k + 2 : ℕ)))]
  · rfl
  · intro i hi
    rw [List.mem_range] at hi
    refine mapM_ok _ _ _ fun j hj => ?_
    rw [List.mem_range] at hj
    rw [rotEntry_eq r (k + 1) (by omega) _ _ _ (by rw [abs_le]; push_cast; omega) (by rw [abs_le]; push_cast; omega)]
    rfl

theorem rotLoop_eq (r : Matrix (Fin 3) (Fin 3) ℝ) : ∀ (c k : ℕ),
    rotLoop (rotR1 r) c (k + 2) (tab (k + 1) (Rc r (k + 1)))
      = .ok ((List.range' (k + 2) c).map fun n => tab n (Rc r n))
  | 0, k => rfl
  | c + 1, k => by
    rw [rotLoop, rotBlock_eq]
    show (do let rest ← rotLoop (rotR1 r) c (k + 2 + 1) _; return _ :: rest) = _
    rw [show k + 2 + 1 = (k + 1) + 2 by ring, rotLoop_eq r c (k + 1), List.range'_succ]
    rfl

theorem shRotationBlocks_eq (N : ℤ) (yaw pitch roll : ℝ) : shRotationBlocks N yaw pitch roll .real
    = .ok ((List.range' 0 (2 + (N - 1).toNat)).map fun n => tab n (Rc (Utils.rotationEuler yaw pitch roll) n)) := by
  unfold shRotationBlocks
  set r := Utils.rotationEuler yaw pitch roll
  have h1 : rotR1 r = tab 1 (Rc r 1) := rotR1_eq r
  have h := rotLoop_eq r (N - 1).toNat 0
  rw [show (0 : ℕ) + 1 = 1 from rfl, ← h1] at h
  simp only [h]
  show Except.ok _ = _
  rw [show 2 + (N - 1).toNat = (N - 1).toNat + 1 + 1 by ring, List.range'_succ, List.range'_succ, h1]
  rfl

/-- Block diagonal matrix with the blocks of order below `n`. -/
noncomputable def blockE (r : Matrix (Fin 3) (Fin 3) ℝ) (S n : ℕ) : Matrix (Fin S) (Fin S) ℝ := fun i j =>
  if acnOrder i = acnOrder j ∧ acnOrder i < n then Rc r (acnOrder i) (acnDegree i) (acnDegree j) else 0

theorem blockE_zero (r : Matrix (Fin 3) (Fin 3) ℝ) (S : ℕ) : blockE r S 0 = 0 := by
  funext i j; simp [blockE]

theorem acnOrder_range {n q : ℕ} : acnOrder q = n ↔ n ^ 2 ≤ q ∧ q < n ^ 2 + (2 * n + 1) := by
  constructor
  · rintro rfl
    obtain ⟨n, k, hk, rfl, ho⟩ := acn_decomp q
    rw [ho]; omega
  · rintro ⟨h1, h2⟩
    obtain ⟨k, rfl⟩ := Nat.exists_eq_add_of_le h1
    exact acnOrder_eq (by omega)

theorem placeBlock_E (r : Matrix (Fin 3) (Fin 3) ℝ) (S n : ℕ) (h : (n + 1) ^ 2 ≤ S) :
    placeBlock (blockE r S n) (n ^ 2) (tab n (Rc r n)) = .ok (blockE r S (n + 1)) := by
  have hl : (tab n (Rc r n)).length = 2 * n + 1 := by simp [tab]
  have hsq : (n + 1) ^ 2 = n ^ 2 + (2 * n + 1) := by ring
  unfold placeBlock
  simp only [hl]
  rw [if_pos (Or.inl (by omega))]
  congr 1
  funext i j
  by_cases hi : acnOrder i = n
  · by_cases hj : acnOrder j = n
    · have hi' := acnOrder_range.1 hi
      have hj' := acnOrder_range.1 hj
      rw [if_pos ⟨hi'.1, hi'.2, hj'.1, hj'.2⟩, blockE, if_pos ⟨by rw [hi, hj], by omega⟩]
      obtain ⟨a, ha⟩ := Nat.exists_eq_add_of_le hi'.1
      obtain ⟨b, hb⟩ := Nat.exists_eq_add_of_le hj'.1
      have da : acnDegree i = (a : ℤ) - n := by rw [ha]; exact acnDegree_eq (by omega)
      have db : acnDegree j = (b : ℤ) - n := by rw [hb]; exact acnDegree_eq (by omega)
      rw [da, db, hi, show i.val - n ^ 2 = a by omega, show j.val - n ^ 2 = b by omega]
      simp only [tab]
      simp only [List.getD_eq_getElem?_getD, List.getElem?_map, List.getElem?_range (show a < 2 * n + 1 by omega),
        List.getElem?_range (show b < 2 * n + 1 by omega), Option.map_some, Option.getD_some]
    · have hj' := fun h => hj (acnOrder_range.2 h)
      rw [if_neg (fun h => hj' ⟨h.2.2.1, h.2.2.2⟩), blockE, blockE, if_neg (fun h => by omega),
        if_neg (fun h => by omega)]
  · have hi' := fun h => hi (acnOrder_range.2 h)
    rw [if_neg (fun h => hi' ⟨h.1, h.2.1⟩), blockE, blockE]
    have : (acnOrder i = acnOrder j ∧ acnOrder i < n) ↔ (acnOrder i = acnOrder j ∧ acnOrder i < n + 1) := by
      constructor <;> rintro ⟨h1, h2⟩ <;> exact ⟨h1, by omega⟩
    simp only [this]

theorem placeBlocks_E (r : Matrix (Fin 3) (Fin 3) ℝ) (S : ℕ) : ∀ (c n : ℕ), (n + c) ^ 2 ≤ S →
    placeBlocks (blockE r S n) (n ^ 2) ((List.range' n c).map fun n => tab n (Rc r n)) = .ok (blockE r S (n + c))
  | 0, n, _ => rfl
  | c + 1, n, h => by
    have hl : (tab n (Rc r n)).length = 2 * n + 1 := by simp [tab]
    rw [List.range'_succ, List.map_cons, placeBlocks,
      placeBlock_E r S n (le_trans (Nat.pow_le_pow_left (by omega) 2) h)]
    show placeBlocks _ _ _ = _
    rw [hl, show n ^ 2 + (2 * n + 1) = (n + 1) ^ 2 by ring, placeBlocks_E r S c (n + 1) (by rwa [show n + 1 + c = n + (c + 1) by ring])]
    rw [show n + 1 + c = n + (c + 1) by ring]

/-- For positive orders the assembled matrix is the block diagonal matrix of the recursion coefficients. -/
theorem shRotationMatrix_eq (N : ℕ) (hN : 1 ≤ N) (yaw pitch roll : ℝ) :
    shRotationMatrix N yaw pitch roll .real
      = .ok ⟨(N + 1) ^ 2, (N + 1) ^ 2, blockE (Utils.rotationEuler yaw pitch roll) ((N + 1) ^ 2) (N + 1)⟩ := by
  have hS : (((N : ℤ) + 1) ^ 2).toNat = (N + 1) ^ 2 := by
    rw [show ((N : ℤ) + 1) ^ 2 = (((N + 1) ^ 2 : ℕ) : ℤ) by push_cast; rfl]; rfl
  unfold shRotationMatrix
  rw [shRotationBlocks_eq, hS]
  have h := placeBlocks_E (Utils.rotationEuler yaw pitch roll) ((N + 1) ^ 2) (2 + ((N : ℤ) - 1).toNat) 0
    (Nat.pow_le_pow_left (by omega) 2)
  rw [blockE_zero, show (0 : ℕ) ^ 2 = 0 by norm_num] at h
  simp only [bind, Except.bind]
  rw [h]
  simp only [pure, Except.pure]
  congr 2
  congr 1; omega

end Verif.Sph
