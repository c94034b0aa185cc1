import Verif.Proofs.Acn

/-!
C10, C11: ACN channel layout and the order inferred from a channel count.
ACN channel of order `n` and degree `m` is `n² + n + m`; with `k = n + m`, `0 ≤ k ≤ 2n`, it is `n² + k`.
-/

namespace Verif.Sph
open Real

/-- The ACN channel number of order `n`, degree `m` (specification). -/
def acn (n : ℕ) (m : ℤ) : ℤ := (n : ℤ) ^ 2 + n + m

theorem acn_toNat {n : ℕ} {m : ℤ} (hm : |m| ≤ n) : ∃ k : ℕ, k ≤ 2 * n ∧ (acn n m).toNat = n ^ 2 + k ∧ (k : ℤ) - n = m := by
  rw [abs_le] at hm
  refine ⟨(n + m).toNat, by omega, ?_, by omega⟩
  unfold acn
  have h : ((n : ℤ) ^ 2) = ((n ^ 2 : ℕ) : ℤ) := by push_cast; rfl
  rw [h]; omega

/-- C10: `repeat_per_order` of `N+1` coefficients has `(N+1)²` entries, and the one at ACN channel `n²+n+m` is `c[n]`. -/
theorem C10_repeatPerOrder {α : Type _} (c : List α) (N : ℕ) (hc : c.length = N + 1) :
    (repeatPerOrder c).length = (N + 1) ^ 2 ∧
    ∀ (n : ℕ) (m : ℤ) (x : α), c[n]? = some x → |m| ≤ n → (repeatPerOrder c)[(acn n m).toNat]? = some x := by
  constructor
  · unfold repeatPerOrder; rw [flatMap_rep_length, hc]; simp
  · intro n m x hx hm
    obtain ⟨k, hk, he, _⟩ := acn_toNat hm
    rw [he]
    have := flatMap_rep_get c 0 n k x hx (by omega)
    simpa [repeatPerOrder] using this

example : (repeatPerOrder ["a", "b"])[(acn 1 (-1)).toNat]? = some "b" :=
  (C10_repeatPerOrder ["a", "b"] 1 rfl).2 1 (-1) "b" rfl (by norm_num)

/-- C10: the columns of `sh_matrix` are in ACN order. -/
theorem C10_shMatrix_columns (N : ℕ) (azi zen : ℝ) :
    (shRow N azi zen).length = (N + 1) ^ 2 ∧
    ∀ (n : ℕ) (m : ℤ), n ≤ N → |m| ≤ n → (shRow N azi zen)[(acn n m).toNat]? = some (realSH n m azi zen) := by
  constructor
  · simp [shRow, acnPairs_length]
  · intro n m hn hm
    obtain ⟨k, hk, he, hkm⟩ := acn_toNat hm
    rw [he, shRow, List.getElem?_map, acnPairs_get N n k hn hk, hkm]; rfl

/-- C10, complex harmonics. -/
theorem C10_shMatrix_columns_complex (N : ℕ) (azi zen : ℝ) :
    (shRowC N azi zen).length = (N + 1) ^ 2 ∧
    ∀ (n : ℕ) (m : ℤ), n ≤ N → |m| ≤ n → (shRowC N azi zen)[(acn n m).toNat]? = some (sphHarm m n azi zen) := by
  constructor
  · simp [shRowC, acnPairs_length]
  · intro n m hn hm
    obtain ⟨k, hk, he, hkm⟩ := acn_toNat hm
    rw [he, shRowC, List.getElem?_map, acnPairs_get N n k hn hk, hkm]; rfl

example : (shRow 2 0 0)[(acn 1 1).toNat]? = some (realSH 1 1 0 0) :=
  (C10_shMatrix_columns 2 0 0).2 1 1 (by norm_num) (by norm_num)

theorem acnPairs_prefix {N N' : ℕ} (h : N ≤ N') : acnPairs N <+: acnPairs N' := by
  induction N', h using Nat.le_induction with
  | base => exact List.prefix_refl _
  | succ N' _ ih => rw [acnPairs_succ]; exact ih.trans (List.prefix_append _ _)

/-- C10: a larger order only appends columns. -/
theorem C10_prefix {N N' : ℕ} (h : N ≤ N') (azi zen : ℝ) : shRow N azi zen <+: shRow N' azi zen :=
  (acnPairs_prefix h).map _

example : shRow 1 0 0 <+: shRow 3 0 0 := C10_prefix (by norm_num) 0 0

/-- C10: vector form used in the linear algebra theorems. -/
theorem C10_shRow_vector (N : ℕ) (azi zen : ℝ) : shRow N azi zen = List.ofFn (shVec N azi zen) := by
  rw [shRow, acnPairs_eq_ofFn, List.map_ofFn]; rfl

/-- C10: vector form of `repeat_per_order`. -/
theorem C10_repeatPerOrder_vector (N : ℕ) (c : ℕ → ℝ) :
    repeatPerOrder ((List.range (N + 1)).map c) = List.ofFn (repVec N c) := by
  have hl := (C10_repeatPerOrder ((List.range (N + 1)).map c) N (by simp)).1
  apply List.ext_getElem?
  intro q
  by_cases h : q < (N + 1) ^ 2
  · obtain ⟨n, k, hk, rfl, ho⟩ := acn_decomp q
    have hn : n ≤ N := by have := acnOrder_le h; rwa [ho] at this
    have := flatMap_rep_get ((List.range (N + 1)).map c) 0 n k (c n)
      (by rw [List.getElem?_map, List.getElem?_range (by omega)]; rfl) (by omega)
    rw [List.getElem?_ofFn, dif_pos h]
    simp only [repVec, ho]
    simpa [repeatPerOrder] using this
  · rw [List.getElem?_eq_none (by rw [hl]; omega), List.getElem?_eq_none (by simp; omega)]

/-- C10: `sh_matrix` returns one row per direction, or raises `ValueError` for an unknown type or mismatched lengths. -/
theorem C10_shMatrix_result (N : ℕ) (azi zen : List ℝ) (ty : ShType) :
    (ty = .other → shMatrix N azi zen ty = .error .valueError) ∧
    (ty ≠ .other → azi.length ≠ zen.length → zen.length ≠ 1 → shMatrix N azi zen ty = .error .valueError) ∧
    (ty = .real → azi.length = zen.length →
      shMatrix N azi zen ty = .ok (.real ((azi.zip zen).map fun d => shRow N d.1 d.2))) ∧
    (ty = .complex → azi.length = zen.length →
      shMatrix N azi zen ty = .ok (.complex ((azi.zip zen).map fun d => shRowC N d.1 d.2))) := by
  have hp : azi.length = zen.length → pairDirs azi zen = .ok (azi.zip zen) := by
    intro h
    unfold pairDirs
    split
    · obtain ⟨a, rfl⟩ := List.length_eq_one_iff.1 h
      rfl
    · rw [if_pos h]
  refine ⟨?_, ?_, ?_, ?_⟩
  · rintro rfl; rfl
  · intro h1 h2 h3
    have : pairDirs azi zen = .error .valueError := by
      unfold pairDirs
      split
      · simp at h3
      · rw [if_neg h2]
    cases ty with
    | real => simp only [shMatrix, this]; rfl
    | complex => simp only [shMatrix, this]; rfl
    | other => exact absurd rfl h1
  · rintro rfl h; simp only [shMatrix, hp h]; rfl
  · rintro rfl h; simp only [shMatrix, hp h]; rfl

example : shMatrix 1 [0, 1] [0, 1, 2] .real = .error .valueError :=
  (C10_shMatrix_result 1 [0, 1] [0, 1, 2] .real).2.1 (by decide) (by decide) (by decide)

/-- C11: the inferred order is `N` exactly when `(N+1)² ≤ K < (N+2)²`; no channels give order `-1`. -/
theorem C11_order_iff (K N : ℕ) :
    (shOrder K = N ↔ (N + 1) ^ 2 ≤ K ∧ K < (N + 2) ^ 2) ∧ shOrder 0 = -1 := by
  have h0 : shOrder 0 = -1 := by
    unfold shOrder pyInt
    rw [if_neg (by norm_num)]
    norm_num
  refine ⟨?_, h0⟩
  rcases Nat.eq_zero_or_pos K with rfl | hK
  · rw [h0]
    constructor
    · intro h; omega
    · rintro ⟨h1, _⟩; nlinarith
  · unfold shOrder pyInt
    have h1 : (1 : ℝ) ≤ K := by exact_mod_cast hK
    have h2 : (1 : ℝ) ≤ √K := by
      rw [Real.one_le_sqrt]; exact h1
    rw [if_pos (by linarith), Int.floor_eq_iff]
    push_cast
    have e1 : ((N : ℝ) ≤ √K - 1) ↔ (N + 1) ^ 2 ≤ K := by
      rw [le_sub_iff_add_le, Real.le_sqrt' (by positivity : (0:ℝ) < N + 1)]; exact_mod_cast Iff.rfl
    have e2 : (√K - 1 < (N : ℝ) + 1) ↔ K < (N + 2) ^ 2 := by
      rw [sub_lt_iff_lt_add, Real.sqrt_lt' (by positivity)]
      rw [show (N : ℝ) + 1 + 1 = N + 2 by ring]
      exact_mod_cast Iff.rfl
    rw [e1, e2]

/-- C11: in particular the order of a complete set of channels is recovered. -/
theorem C11_order_square (N : ℕ) : shOrder ((N + 1) ^ 2) = N :=
  ((C11_order_iff ((N + 1) ^ 2) N).1).2 ⟨le_refl _, Nat.pow_lt_pow_left (by omega) (by norm_num)⟩

/-- C11: surplus channels are silently rounded down. -/
theorem C11_order_surplus (N e : ℕ) (he : e ≤ 2 * N + 2) : shOrder ((N + 1) ^ 2 + e) = N :=
  ((C11_order_iff _ N).1).2 ⟨by omega, by nlinarith⟩

example : shOrder 16 = (3 : ℕ) := C11_order_square 3
example : shOrder 15 = (2 : ℕ) := C11_order_surplus 2 6 (by norm_num)

end Verif.Sph
