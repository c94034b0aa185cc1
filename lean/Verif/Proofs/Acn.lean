import Verif.Model.SphHarm
import Mathlib.Tactic

/-! Helper lemmas about the ACN double loop. -/

namespace Verif.Sph

theorem acnPairs_zero : acnPairs 0 = [(0, 0)] := by decide

theorem acnPairs_succ (N : ℕ) : acnPairs (N + 1)
    = acnPairs N ++ (List.range (2 * (N + 1) + 1)).map fun (k : ℕ) => (N + 1, (k : ℤ) - ((N + 1 : ℕ) : ℤ)) := by
  rw [acnPairs, List.range_succ, List.flatMap_append, List.flatMap_singleton]; rfl

theorem acnPairs_length : ∀ N : ℕ, (acnPairs N).length = (N + 1) ^ 2
  | 0 => by decide
  | N + 1 => by rw [acnPairs_succ, List.length_append, acnPairs_length N]; simp; ring

theorem acnPairs_get : ∀ (N n k : ℕ), n ≤ N → k ≤ 2 * n → (acnPairs N)[n ^ 2 + k]? = some (n, (k : ℤ) - n)
  | 0, n, k, hn, hk => by
    have : n = 0 := by omega
    subst this
    have : k = 0 := by omega
    subst this; decide
  | N + 1, n, k, hn, hk => by
    rw [acnPairs_succ]
    rcases Nat.lt_or_ge n (N + 1) with h | h
    · rw [List.getElem?_append_left]
      · exact acnPairs_get N n k (by omega) hk
      · rw [acnPairs_length]; nlinarith
    · have : n = N + 1 := by omega
      subst this
      rw [List.getElem?_append_right]
      · rw [acnPairs_length, Nat.add_sub_cancel_left, List.getElem?_map, List.getElem?_range (by omega)]
        simp
      · rw [acnPairs_length]; omega

theorem acnOrder_eq {n k : ℕ} (hk : k ≤ 2 * n) : acnOrder (n ^ 2 + k) = n := by
  unfold acnOrder
  rw [pow_two]
  exact Nat.sqrt_add_eq n (by omega)

theorem acnDegree_eq {n k : ℕ} (hk : k ≤ 2 * n) : acnDegree (n ^ 2 + k) = (k : ℤ) - n := by
  unfold acnDegree; rw [acnOrder_eq hk]; push_cast; ring

theorem acn_decomp (q : ℕ) : ∃ n k : ℕ, k ≤ 2 * n ∧ q = n ^ 2 + k ∧ acnOrder q = n := by
  refine ⟨Nat.sqrt q, q - Nat.sqrt q ^ 2, ?_, ?_, rfl⟩
  · have := Nat.sqrt_le_add q; rw [pow_two]; omega
  · have := Nat.sqrt_le' q; omega

theorem acnOrder_le {N q : ℕ} (h : q < (N + 1) ^ 2) : acnOrder q ≤ N := by
  obtain ⟨n, k, hk, rfl, ho⟩ := acn_decomp q
  rw [ho]; by_contra hc
  have : N + 1 ≤ n := by omega
  have := Nat.pow_le_pow_left this 2
  omega

theorem acnPairs_eq_ofFn (N : ℕ) :
    acnPairs N = List.ofFn (fun q : Fin ((N + 1) ^ 2) => (acnOrder q, acnDegree q)) := by
  apply List.ext_getElem?
  intro q
  by_cases h : q < (N + 1) ^ 2
  · obtain ⟨n, k, hk, rfl, ho⟩ := acn_decomp q
    have hn : n ≤ N := by have := acnOrder_le h; rwa [ho] at this
    rw [acnPairs_get N n k hn hk, List.getElem?_ofFn, dif_pos h]
    simp only
    rw [acnOrder_eq hk, acnDegree_eq hk]
  · rw [List.getElem?_eq_none (by rw [acnPairs_length]; omega), List.getElem?_eq_none (by simp; omega)]

/-- Length of `repeat_per_order` when the first coefficient has order `s`. -/
theorem flatMap_rep_get {α : Type _} : ∀ (c : List α) (s n k : ℕ) (x : α), c[n]? = some x → k ≤ 2 * (s + n) →
    ((c.zipIdx s).flatMap fun p => List.replicate (2 * p.2 + 1) p.1)[(s + n) ^ 2 - s ^ 2 + k]? = some x
  | [], s, n, k, x, h, _ => by simp at h
  | a :: c, s, 0, k, x, h, hk => by
    simp only [List.getElem?_cons_zero, Option.some.injEq] at h
    subst h
    rw [List.zipIdx_cons, List.flatMap_cons, List.getElem?_append_left]
    · have e : (s + 0) ^ 2 - s ^ 2 + k = k := by simp
      rw [e, List.getElem?_replicate]
      rw [if_pos]; simp only; omega
    · simp only [List.length_replicate]; simp only [Nat.add_zero] at hk ⊢; omega
  | a :: c, s, n + 1, k, x, h, hk => by
    simp only [List.getElem?_cons_succ] at h
    have ih := flatMap_rep_get c (s + 1) n k x h (by omega)
    rw [List.zipIdx_cons, List.flatMap_cons, List.getElem?_append_right]
    · rw [List.length_replicate]
      simp only
      have e : (s + (n + 1)) ^ 2 - s ^ 2 + k - (2 * s + 1) = (s + 1 + n) ^ 2 - (s + 1) ^ 2 + k := by
        have h1 : (s + (n + 1)) ^ 2 = (s + 1 + n) ^ 2 := by ring
        have h2 : (s + 1) ^ 2 = s ^ 2 + (2 * s + 1) := by ring
        have h3 : (s + 1) ^ 2 ≤ (s + 1 + n) ^ 2 := Nat.pow_le_pow_left (by omega) 2
        omega
      rw [e]; exact ih
    · rw [List.length_replicate]
      simp only
      have h1 : (s + (n + 1)) ^ 2 = s ^ 2 + (2 * s * (n + 1) + (n + 1) ^ 2) := by ring
      have : 2 * s + 1 ≤ 2 * s * (n + 1) + (n + 1) ^ 2 := by nlinarith
      omega

theorem flatMap_rep_length {α : Type _} : ∀ (c : List α) (s : ℕ),
    ((c.zipIdx s).flatMap fun p => List.replicate (2 * p.2 + 1) p.1).length = (s + c.length) ^ 2 - s ^ 2
  | [], s => by simp
  | a :: c, s => by
    rw [List.zipIdx_cons, List.flatMap_cons, List.length_append, flatMap_rep_length c (s + 1), List.length_replicate,
      List.length_cons]
    have h1 : (s + (c.length + 1)) ^ 2 = (s + 1 + c.length) ^ 2 := by ring
    have h2 : (s + 1) ^ 2 = s ^ 2 + (2 * s + 1) := by ring
    have h3 : (s + 1) ^ 2 ≤ (s + 1 + c.length) ^ 2 := Nat.pow_le_pow_left (by omega) 2
    simp only
    omega

end Verif.Sph
