import Mathlib.Tactic
import Verif.Model.Binaural

/-! Facts on the linear convolution of the model, row-major storage and lists. -/

namespace Verif.Sig

open Finset

theorem getD_out {x : List ℝ} {n : ℕ} (h : x.length ≤ n) : x.getD n 0 = 0 := by
  rw [List.getD_eq_getElem?_getD, List.getElem?_eq_none h]; rfl

theorem convFull_length (x h : List ℝ) : (convFull x h).length = x.length + h.length - 1 := by simp [convFull]

/-- Outside its support the convolution vanishes. -/
theorem convAt_out (x h : List ℝ) (n : ℕ) (hn : x.length + h.length - 1 ≤ n) : convAt x h n = 0 := by
  refine Finset.sum_eq_zero fun k hk => ?_
  rw [Finset.mem_range] at hk
  rcases le_or_gt x.length k with hx | hx
  · rw [getD_out hx, zero_mul]
  · rw [getD_out (show h.length ≤ n - k by omega), mul_zero]

theorem convFull_getD (x h : List ℝ) (n : ℕ) : (convFull x h).getD n 0 = convAt x h n := by
  rcases lt_or_ge n (x.length + h.length - 1) with hn | hn
  · rw [List.getD_eq_getElem?_getD, convFull, List.getElem?_map, List.getElem?_range hn]; rfl
  · rw [getD_out (by rw [convFull_length]; exact hn), convAt_out x h n hn]

theorem convAt_comm (x h : List ℝ) (n : ℕ) : convAt x h n = convAt h x n := by
  unfold convAt
  rw [← Finset.sum_range_reflect]
  refine Finset.sum_congr rfl fun k hk => ?_
  rw [Finset.mem_range] at hk
  rw [show n + 1 - 1 - k = n - k by omega, show n - (n - k) = k by omega, mul_comm]

theorem getD_ofFn {n : ℕ} (f : Fin n → ℝ) (i : ℕ) : (List.ofFn f).getD i 0 = if h : i < n then f ⟨i, h⟩ else 0 := by
  split
  · rename_i h
    rw [List.getD_eq_getElem?_getD, List.getElem?_eq_getElem (by simpa using h)]
    simp
  · rename_i h
    exact getD_out (by simpa using h)

/-- The convolution of two functions on initial segments, as a sum over the samples of the first. -/
theorem convAt_ofFn {S T : ℕ} (x : Fin S → ℝ) (h : Fin T → ℝ) (n : ℕ) : convAt (List.ofFn x) (List.ofFn h) n
    = ∑ s : Fin S, if hh : (s : ℕ) ≤ n ∧ n - s < T then x s * h ⟨n - s, hh.2⟩ else 0 := by
  have key : ∀ k, (List.ofFn x).getD k 0 * (List.ofFn h).getD (n - k) 0
      = if hk : k < S then (if hT : n - k < T then x ⟨k, hk⟩ * h ⟨n - k, hT⟩ else 0) else 0 := by
    intro k
    rw [getD_ofFn, getD_ofFn]
    split <;> split <;> simp
  unfold convAt
  simp only [key]
  rw [← Fin.sum_univ_eq_sum_range (fun k => if hk : k < S then (if hT : n - k < T then x ⟨k, hk⟩ * h ⟨n - k, hT⟩ else 0) else 0)]
  rw [Fin.sum_univ_eq_sum_range (fun k => if hk : k < S then (if hT : n - k < T then x ⟨k, hk⟩ * h ⟨n - k, hT⟩ else 0) else 0)]
  have h2 : ∀ s : Fin S, (if hh : (s : ℕ) ≤ n ∧ n - s < T then x s * h ⟨n - s, hh.2⟩ else 0)
      = (fun k => if k ≤ n then (if hk : k < S then (if hT : n - k < T then x ⟨k, hk⟩ * h ⟨n - k, hT⟩ else 0) else 0) else 0) (s : ℕ) := by
    intro s
    by_cases h1 : (s : ℕ) ≤ n <;> by_cases h2 : n - s < T <;> simp [h1, h2]
  rw [Finset.sum_congr rfl fun s _ => h2 s, Fin.sum_univ_eq_sum_range
    (fun k => if k ≤ n then (if hk : k < S then (if hT : n - k < T then x ⟨k, hk⟩ * h ⟨n - k, hT⟩ else 0) else 0) else 0)]
  rw [← Finset.sum_filter]
  have h3 : ∀ F : ℕ → ℝ, (∀ k, S ≤ k → F k = 0) → ∑ k ∈ range (n + 1), F k = ∑ k ∈ (range S).filter (· ≤ n), F k := by
    intro F hF
    symm
    apply Finset.sum_subset
    · intro k hk
      simp only [mem_filter, mem_range] at hk ⊢
      omega
    · intro k hk hk'
      apply hF
      simp only [mem_filter, mem_range, not_and] at hk hk'
      by_contra hc
      exact hk' (by omega) (by omega)
  apply h3
  intro k hk
  rw [dif_neg (by omega)]

theorem zipWith_ofFn {n : ℕ} (F : ℝ → ℝ → ℝ) (f g : Fin n → ℝ) :
    List.zipWith F (List.ofFn f) (List.ofFn g) = List.ofFn fun i => F (f i) (g i) := by
  apply List.ext_getElem (by simp)
  intro i h1 h2
  simp

/-- A list of known length is `List.ofFn` of its entries. -/
theorem eq_ofFn (x : List ℝ) : x = List.ofFn fun i : Fin x.length => x.getD i 0 := by
  apply List.ext_getElem (by simp)
  intro i h1 h2
  simp [List.getD_eq_getElem?_getD, h1]

/-- Row `k` of the concatenation of rows of equal length. -/
theorem ndRow_flatten (c : ℕ) (rows : List (List ℝ)) (hr : ∀ r ∈ rows, r.length = c) (k : ℕ) :
    Decoder.ndRow rows.flatten c k = rows.getD k [] := by
  induction rows generalizing k with
  | nil => simp [Decoder.ndRow]
  | cons r rows ih =>
    have hc := hr r (by simp)
    have ih := ih (fun q hq => hr q (List.mem_cons_of_mem _ hq))
    cases k with
    | zero =>
      simp only [Decoder.ndRow, List.flatten_cons, Nat.zero_mul, List.drop_zero, List.getD_cons_zero]
      rw [List.take_append_of_le_length (by omega), List.take_of_length_le (by omega)]
    | succ k =>
      rw [List.getD_cons_succ, ← ih k]
      simp only [Decoder.ndRow, List.flatten_cons]
      rw [List.drop_append, List.drop_eq_nil_of_le (by rw [hc, Nat.succ_mul]; omega), List.nil_append, hc,
        show (k + 1) * c - c = k * c by rw [Nat.succ_mul]; omega]

end Verif.Sig
