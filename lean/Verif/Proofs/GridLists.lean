import Verif.Proofs.EqualAngle
import Mathlib.Data.List.GetD

/-!
`tile`/`repeat` index arithmetic and sums over product grids.
-/

namespace Verif.Grids
open Real Polynomial Verif.Sph

theorem length_linspaceOpen (s : ℝ) (n : ℕ) : (linspaceOpen s n).length = n := by simp [linspaceOpen]

theorem linspaceOpen_getD (s : ℝ) {n k : ℕ} (h : k < n) : (linspaceOpen s n).getD k 0 = k * (s / n) := by
  rw [List.getD_eq_getElem _ _ (by rw [length_linspaceOpen]; exact h)]
  simp [linspaceOpen]

theorem length_npTile (l : List ℝ) (k : ℕ) : (npTile l k).length = k * l.length := by
  simp [npTile, List.length_flatten]

theorem npTile_succ (l : List ℝ) (k : ℕ) : npTile l (k + 1) = l ++ npTile l k := rfl

theorem npTile_getD (l : List ℝ) {P i k : ℕ} (hi : i < P) (hk : k < l.length) :
    (npTile l P).getD (i * l.length + k) 0 = l.getD k 0 := by
  induction P generalizing i with
  | zero => omega
  | succ P ih =>
    rw [npTile_succ]
    rcases i with _ | i
    · rw [zero_mul, zero_add, List.getD_append _ _ _ _ hk]
    · rw [List.getD_append_right _ _ _ _ (by nlinarith), show (i + 1) * l.length + k - l.length = i * l.length + k by
        rw [add_mul, one_mul]; omega]
      exact ih (by omega)

theorem length_npRepeat (l : List ℝ) (L : ℕ) : (npRepeat l L).length = l.length * L := by
  simp [npRepeat, List.length_flatMap]

theorem npRepeat_getD (l : List ℝ) {L i k : ℕ} (hi : i < l.length) (hk : k < L) :
    (npRepeat l L).getD (i * L + k) 0 = l.getD i 0 := by
  induction l generalizing i with
  | nil => simp at hi
  | cons a l ih =>
    have e : npRepeat (a :: l) L = List.replicate L a ++ npRepeat l L := rfl
    rw [e]
    rcases i with _ | i
    · rw [zero_mul, zero_add, List.getD_append _ _ _ _ (by simpa using hk)]
      simp [List.getD_eq_getElem?_getD, hk]
    · rw [List.getD_append_right _ _ _ _ (by rw [List.length_replicate]; nlinarith), List.length_replicate,
        show (i + 1) * L + k - L = i * L + k by rw [add_mul, one_mul]; omega, ih (by simpa using hi)]
      simp

theorem sum_range_mul (P L : ℕ) (g : ℕ → ℝ) :
    ∑ q ∈ Finset.range (P * L), g q = ∑ i ∈ Finset.range P, ∑ k ∈ Finset.range L, g (i * L + k) := by
  induction P with
  | zero => simp
  | succ P ih => rw [add_mul, one_mul, Finset.sum_range_add, ih, Finset.sum_range_succ]

theorem map_getD (l : List ℝ) (f : ℝ → ℝ) {i : ℕ} (h : i < l.length) : (l.map f).getD i 0 = f (l.getD i 0) := by
  rw [List.getD_eq_getElem _ _ (by simpa using h), List.getD_eq_getElem _ _ h]; simp

/-- Sums over a product grid given as three lists. -/
theorem sum_grid {Q : ℕ} (azi zen w : Fin Q → ℝ) (a z v : List ℝ) (hlen : v.length = z.length)
    (ha : List.ofFn azi = npTile a z.length) (hz : List.ofFn zen = npRepeat z a.length)
    (hw : List.ofFn w = npRepeat v a.length) (f : ℝ → ℝ → ℝ → ℝ) :
    ∑ q, f (azi q) (zen q) (w q) = ∑ i ∈ Finset.range z.length, ∑ k ∈ Finset.range a.length,
      f (a.getD k 0) (z.getD i 0) (v.getD i 0) := by
  have hQ : Q = z.length * a.length := by
    have := congrArg List.length ha
    rwa [List.length_ofFn, length_npTile] at this
  have e : ∀ (u : Fin Q → ℝ) (q : Fin Q), u q = (List.ofFn u).getD q 0 := by
    intro u q
    rw [List.getD_eq_getElem _ _ (by simp)]; simp
  have h1 : ∑ q, f (azi q) (zen q) (w q)
      = ∑ q ∈ Finset.range Q, f ((List.ofFn azi).getD q 0) ((List.ofFn zen).getD q 0) ((List.ofFn w).getD q 0) := by
    rw [Finset.sum_range]
    exact Finset.sum_congr rfl fun q _ => by rw [← e, ← e, ← e]
  rw [h1, ha, hz, hw, hQ, sum_range_mul]
  refine Finset.sum_congr rfl fun i hi => Finset.sum_congr rfl fun k hk => ?_
  have hi := Finset.mem_range.1 hi
  have hk := Finset.mem_range.1 hk
  rw [npTile_getD a hi hk, npRepeat_getD z hi hk, npRepeat_getD v (hlen ▸ hi) hk]

theorem map_npRepeat (l : List ℝ) (L : ℕ) (f : ℝ → ℝ) : (npRepeat l L).map f = npRepeat (l.map f) L := by
  simp [npRepeat, List.map_flatMap, List.flatMap_map]

/-- Discrete orthonormality on the product grids: azimuths of `gauss`/`equal_angle`, polar rule exact up to degree `2N+1`. -/
theorem grid_orth {Q : ℕ} (azi zen w : Fin Q → ℝ) (z v : List ℝ) (N : ℕ) (hlen : v.length = z.length)
    (ha : List.ofFn azi = npTile (linspaceOpen (2 * π) (2 * N + 2)) z.length)
    (hz : List.ofFn zen = npRepeat z (2 * N + 2)) (hw : List.ofFn w = npRepeat v (2 * N + 2))
    (hex : ∀ p : ℝ[X], p.natDegree ≤ 2 * N + 1 →
      ∑ i ∈ Finset.range z.length, v.getD i 0 * p.eval (cos (z.getD i 0)) = π / (N + 1) * J p)
    (n n' : ℕ) (m m' : ℤ) (hm : |m| ≤ n) (hm' : |m'| ≤ n') (hn : n + n' ≤ 2 * N + 1) :
    ∑ q, w q * (realSH n m (azi q) (zen q) * realSH n' m' (azi q) (zen q)) = if n = n' ∧ m = m' then 1 else 0 := by
  have hll := length_linspaceOpen (2 * π) (2 * N + 2)
  have h := sum_grid azi zen w _ z v hlen ha (by rw [hll]; exact hz) (by rw [hll]; exact hw)
    (fun a z w => w * (realSH n m a z * realSH n' m' a z))
  rw [h, hll]
  have h2 := product_grid_orth (P := z.length) (L := 2 * N + 2) (fun i => z.getD i 0) (fun i => v.getD i 0) (π / (N + 1))
    (2 * N + 1) hex n n' m m' hm hm' hn (by push_cast; omega)
  have h3 : ∑ i ∈ Finset.range z.length, ∑ k ∈ Finset.range (2 * N + 2), v.getD i 0 *
      (realSH n m ((linspaceOpen (2 * π) (2 * N + 2)).getD k 0) (z.getD i 0) *
        realSH n' m' ((linspaceOpen (2 * π) (2 * N + 2)).getD k 0) (z.getD i 0))
      = ∑ i ∈ Finset.range z.length, ∑ k ∈ Finset.range (2 * N + 2), v.getD i 0 *
      (realSH n m (k * (2 * π / ((2 * N + 2 : ℕ) : ℝ))) (z.getD i 0) *
        realSH n' m' (k * (2 * π / ((2 * N + 2 : ℕ) : ℝ))) (z.getD i 0)) := by
    refine Finset.sum_congr rfl fun a _ => Finset.sum_congr rfl fun k hk => ?_
    rw [linspaceOpen_getD _ (Finset.mem_range.1 hk)]
  rw [h3, h2]
  have : (N : ℝ) + 1 ≠ 0 := by positivity
  have := pi_ne_zero
  split_ifs
  · push_cast
    field_simp
  · rfl

/-- Discrete orthonormality on a product grid gives the round trip of the transform. -/
theorem grid_gram {Q : ℕ} (azi zen w : Fin Q → ℝ) (z v : List ℝ) (N : ℕ) (hlen : v.length = z.length)
    (ha : List.ofFn azi = npTile (linspaceOpen (2 * π) (2 * N + 2)) z.length)
    (hz : List.ofFn zen = npRepeat z (2 * N + 2)) (hw : List.ofFn w = npRepeat v (2 * N + 2))
    (hex : ∀ p : ℝ[X], p.natDegree ≤ 2 * N + 1 →
      ∑ i ∈ Finset.range z.length, v.getD i 0 * p.eval (cos (z.getD i 0)) = π / (N + 1) * J p) :
    (shMat N azi zen).transpose * (Matrix.diagonal w * shMat N azi zen) = 1 := by
  ext i j
  rw [Matrix.mul_apply]
  simp only [Matrix.transpose_apply, Matrix.diagonal_mul]
  have e : ∀ q, shMat N azi zen q i * (w q * shMat N azi zen q j)
      = w q * (realSH (acnOrder i) (acnDegree i) (azi q) (zen q) * realSH (acnOrder j) (acnDegree j) (azi q) (zen q)) := by
    intro q; show realSH _ _ _ _ * (w q * realSH _ _ _ _) = _; ring
  have hi := acnOrder_le i.2
  have hj := acnOrder_le j.2
  rw [Finset.sum_congr rfl fun q _ => e q, grid_orth azi zen w z v N hlen ha hz hw hex _ _ _ _ (acnDegree_abs i)
    (acnDegree_abs j) (by omega), Matrix.one_apply]
  by_cases hij : i = j
  · subst hij
    rw [if_pos ⟨rfl, rfl⟩, if_pos rfl]
  · rw [if_neg hij, if_neg]
    rintro ⟨h4, h5⟩
    exact hij (Fin.ext (acn_ext h4 h5))

end Verif.Grids
