import Mathlib.Tactic
import Verif.Model.Utils

/-!
C107 (`stack`), C108 (`rms`), C109 (`test_diff`).
-/

namespace Verif.Utils
open Real

/-! ### C107 -/

/-- The element in row `i` and column `j`. -/
def Arr2.at? {α : Type _} (a : Arr2 α) (i j : ℕ) : Option α := (a.rows[i]?).bind (·[j]?)

/-- **C107** `stack` succeeds exactly for two arrays of the same shape that is not square; every other pair is rejected with `ValueError`. -/
theorem C107_iff {α : Type _} (a b : Arr2 α) :
    ((∃ c, stack a b = .ok c) ↔ a.shape = b.shape ∧ a.shape.1 ≠ a.shape.2) ∧
    (¬ (a.shape = b.shape ∧ a.shape.1 ≠ a.shape.2) → stack a b = .error .valueError) := by
  have hs : a.shape = b.shape ↔ a.shape.1 = b.shape.1 ∧ a.shape.2 = b.shape.2 := Prod.ext_iff
  unfold stack
  simp only [hs]
  set M1 := a.shape.1
  set N1 := a.shape.2
  set M2 := b.shape.1
  set N2 := b.shape.2
  constructor
  · constructor
    · rintro ⟨c, hc⟩
      split_ifs at hc with h1 h2 h3 h4
      · exact ⟨⟨h1.1, h2⟩, by omega⟩
      · exact ⟨⟨h4, h3.1⟩, by omega⟩
    · rintro ⟨⟨h1, h2⟩, h3⟩
      rcases lt_or_gt_of_ne h3 with h | h
      · exact ⟨vstack a b, by rw [if_pos ⟨h1, .inl h⟩, if_pos h2]⟩
      · exact ⟨hstack a b, by rw [if_neg (by omega), if_pos ⟨h2, .inl h⟩, if_pos h1]⟩
  · intro h
    split_ifs with h1 h2 h3 h4
    · exact absurd ⟨⟨h1.1, h2⟩, by omega⟩ h
    · rfl
    · exact absurd ⟨⟨h4, h3.1⟩, by omega⟩ h
    · rfl
    · rfl

/-- **C107** Wide arrays are put on top of each other, tall arrays side by side: the two arrays are joined along the smaller dimension, the first
one first.  Non-empty arrays give a result without singleton axes, so that the final `np.squeeze` changes nothing. -/
theorem C107_joins {α : Type _} (a b : Arr2 α) (ha : a.WF) (hb : b.WF) (hs : a.shape = b.shape) :
    (a.shape.1 < a.shape.2 → ∃ c, stack a b = .ok c ∧ c.WF ∧ c.shape = (2 * a.shape.1, a.shape.2) ∧
      (∀ i j, i < a.shape.1 → c.at? i j = a.at? i j ∧ c.at? (a.shape.1 + i) j = b.at? i j) ∧ (1 ≤ a.shape.1 → 2 ≤ c.shape.1 ∧ 2 ≤ c.shape.2)) ∧
    (a.shape.2 < a.shape.1 → ∃ c, stack a b = .ok c ∧ c.WF ∧ c.shape = (a.shape.1, 2 * a.shape.2) ∧
      (∀ i j, j < a.shape.2 → c.at? i j = a.at? i j ∧ c.at? i (a.shape.2 + j) = b.at? i j) ∧ (1 ≤ a.shape.2 → 2 ≤ c.shape.1 ∧ 2 ≤ c.shape.2)) := by
  obtain ⟨h1, h2⟩ : a.rows.length = b.rows.length ∧ a.cols = b.cols := Prod.ext_iff.1 hs
  simp only [Arr2.shape]
  constructor
  · intro h
    refine ⟨vstack a b, ?_, ?_, ?_, ?_, ?_⟩
    · unfold stack
      exact (if_pos (show a.rows.length = b.rows.length ∧ (a.rows.length < a.cols ∨ b.rows.length < b.cols) from ⟨h1, .inl h⟩)).trans (if_pos h2)
    · intro r hr
      simp only [vstack, List.mem_append] at hr ⊢
      rcases hr with hr | hr
      · exact ha r hr
      · rw [hb r hr, h2]
    · simp only [vstack, List.length_append, Prod.mk.injEq, and_true]; omega
    · intro i j hi
      simp only [Arr2.at?, vstack]
      rw [List.getElem?_append_left hi, List.getElem?_append_right (by omega), Nat.add_sub_cancel_left]
      exact ⟨rfl, rfl⟩
    · intro h0
      simp only [vstack, List.length_append]
      omega
  · intro h
    refine ⟨hstack a b, ?_, ?_, ?_, ?_, ?_⟩
    · unfold stack
      exact (if_neg (show ¬ (a.rows.length = b.rows.length ∧ (a.rows.length < a.cols ∨ b.rows.length < b.cols)) by omega)).trans
        ((if_pos (show a.cols = b.cols ∧ (a.cols < a.rows.length ∨ b.cols < b.rows.length) from ⟨h2, .inl h⟩)).trans (if_pos h1))
    · intro r hr
      simp only [hstack] at hr ⊢
      obtain ⟨n, hn, rfl⟩ := List.getElem_of_mem hr
      simp only [List.getElem_zipWith, List.length_append]
      rw [ha _ (List.getElem_mem _), hb _ (List.getElem_mem _)]
    · simp only [hstack, List.length_zipWith, Prod.mk.injEq]; omega
    · intro i j hj
      simp only [Arr2.at?, hstack, List.getElem?_zipWith]
      rcases lt_or_ge i a.rows.length with hi | hi
      · have la : a.rows[i].length = a.cols := ha _ (List.getElem_mem _)
        rw [List.getElem?_eq_getElem hi, List.getElem?_eq_getElem (h1 ▸ hi)]
        simp only [Option.bind_some]
        rw [List.getElem?_append_left (by omega), List.getElem?_append_right (by omega), la, Nat.add_sub_cancel_left]
        exact ⟨rfl, rfl⟩
      · rw [List.getElem?_eq_none hi, List.getElem?_eq_none (h1 ▸ hi)]
        exact ⟨rfl, rfl⟩
    · intro h0
      simp only [hstack, List.length_zipWith]
      omega

/-- **C107**, negation of the documented "along the same-sized dimension": two arrays with equal second (or first) dimension but different other dimension
are not stacked along the common one. -/
theorem C107_common_dimension_fails :
    stack (⟨3, [[1, 2, 3]]⟩ : Arr2 ℕ) ⟨3, [[4, 5, 6], [7, 8, 9]]⟩ = .error .valueError ∧
    stack (⟨1, [[1], [2]]⟩ : Arr2 ℕ) ⟨3, [[4, 5, 6], [7, 8, 9]]⟩ = .error .valueError :=
  ⟨(C107_iff _ _).2 (by simp [Arr2.shape]), (C107_iff _ _).2 (by simp [Arr2.shape])⟩

/-- C107: two channels of three samples each, twice. -/
example : ∃ c, stack (⟨3, [[1, 2, 3], [4, 5, 6]]⟩ : Arr2 ℕ) ⟨3, [[7, 8, 9], [10, 11, 12]]⟩ = .ok c ∧ c.at? 3 1 = some 11 := by
  obtain ⟨c, h1, -, -, h4, -⟩ := (C107_joins (⟨3, [[1, 2, 3], [4, 5, 6]]⟩ : Arr2 ℕ) ⟨3, [[7, 8, 9], [10, 11, 12]]⟩
    (by simp [Arr2.WF]) (by simp [Arr2.WF]) rfl).1 (by simp [Arr2.shape])
  exact ⟨c, h1, (h4 1 1 (by simp [Arr2.shape])).2.trans rfl⟩

/-! ### C108 -/

/-- **C108** The RMS value is that of a constant signal with the same energy, lies between the smallest and the largest magnitude of the samples, scales
with the magnitude of a gain, and is zero exactly for silence. -/
theorem C108_rms (x : List ℝ) (hx : x ≠ []) :
    x.length * rms x ^ 2 = (x.map fun v => v ^ 2).sum ∧ 0 ≤ rms x ∧
    (∀ lo hi : ℝ, 0 ≤ lo → (∀ v ∈ x, lo ≤ |v| ∧ |v| ≤ hi) → lo ≤ rms x ∧ rms x ≤ hi) ∧
    (∀ c : ℝ, rms (x.map (c * ·)) = |c| * rms x) ∧ (rms x = 0 ↔ ∀ v ∈ x, v = 0) := by
  have hn : (0 : ℝ) < x.length := by exact_mod_cast List.length_pos_iff.2 hx
  have hs0 : 0 ≤ (x.map fun v => v * v).sum := List.sum_nonneg (by simp only [List.mem_map]; rintro _ ⟨v, -, rfl⟩; exact mul_self_nonneg v)
  have hsq : x.length * rms x ^ 2 = (x.map fun v => v ^ 2).sum := by
    unfold rms
    rw [Real.sq_sqrt (by positivity)]
    field_simp
  have hpos : 0 ≤ rms x := Real.sqrt_nonneg _
  have hbound : ∀ (l : List ℝ) (lo hi : ℝ), 0 ≤ lo → (∀ v ∈ l, lo ≤ |v| ∧ |v| ≤ hi) →
      l.length * lo ^ 2 ≤ (l.map fun v => v ^ 2).sum ∧ (l.map fun v => v ^ 2).sum ≤ l.length * hi ^ 2 := by
    intro l lo hi hlo h
    induction l with
    | nil => simp
    | cons v l ih =>
      obtain ⟨i1, i2⟩ := ih fun w hw => h w (by simp [hw])
      obtain ⟨v1, v2⟩ := h v (by simp)
      have : lo ^ 2 ≤ v ^ 2 := by rw [← sq_abs v]; gcongr
      have : v ^ 2 ≤ hi ^ 2 := by rw [← sq_abs v]; gcongr
      simp only [List.map_cons, List.sum_cons, List.length_cons]
      push_cast
      constructor <;> linarith
  refine ⟨hsq, hpos, fun lo hi hlo h => ?_, fun c => ?_, ?_⟩
  · obtain ⟨b1, b2⟩ := hbound x lo hi hlo h
    rw [← hsq] at b1 b2
    have hhi : 0 ≤ hi := by
      obtain ⟨v, hv⟩ := List.exists_mem_of_ne_nil x hx
      exact (abs_nonneg v).trans (h v hv).2
    exact ⟨(sq_le_sq₀ hlo hpos).1 (le_of_mul_le_mul_left b1 hn), (sq_le_sq₀ hpos hhi).1 (le_of_mul_le_mul_left b2 hn)⟩
  · unfold rms
    rw [List.map_map, List.length_map, show ((fun v => v * v) ∘ (c * ·)) = fun v : ℝ => c ^ 2 * (v * v) by funext v; simp only [Function.comp]; ring,
      List.sum_map_mul_left, mul_div_assoc, Real.sqrt_mul (sq_nonneg c), Real.sqrt_sq_eq_abs]
  · constructor
    · intro h v hv
      rw [h] at hsq
      by_contra hne
      have hmem : v ^ 2 ∈ x.map fun v => v ^ 2 := List.mem_map_of_mem hv
      have := List.single_le_sum (l := x.map fun v : ℝ => v ^ 2) (by simp only [List.mem_map]; rintro _ ⟨w, -, rfl⟩; exact sq_nonneg w) _ hmem
      have : 0 < v ^ 2 := by positivity
      linarith [hsq]
    · intro h
      unfold rms
      rw [show (x.map fun v => v * v) = x.map fun _ => 0 from List.map_congr_left fun v hv => by rw [h v hv, mul_zero]]
      simp

/-- C108: a gain of `c` raises the level `db(rms(x))` by `20*log10|c|`. -/
theorem C108_level (x : List ℝ) (v c : ℝ) (hv : v ∈ x) (hv0 : v ≠ 0) (hc : c ≠ 0) : db (rms (x.map (c * ·))) = db c + db (rms x) := by
  have hx : x ≠ [] := List.ne_nil_of_mem hv
  have h := C108_rms x hx
  have hr : rms x ≠ 0 := fun h0 => hv0 (h.2.2.2.2.1 h0 v hv)
  rw [h.2.2.2.1 c]
  unfold db
  simp only [abs_mul, abs_abs, abs_of_nonneg h.2.1]
  rw [Real.logb_mul (abs_ne_zero.2 hc) hr]
  ring

example : rms [3, -3] = 3 := by
  have h := C108_rms [3, -3] (by simp)
  obtain ⟨h1, h2⟩ := h.2.2.1 3 3 (by norm_num) (by simp)
  linarith

/-! ### C109 -/

/-- **C109** On arrays of the same size `test_diff` is the sum of the magnitudes of the differences: not negative, symmetric, zero exactly when the arrays are
equal, and obeying the triangle inequality. -/
theorem C109_distance (a b c : List ℝ) (hab : a.length = b.length) (hbc : b.length = c.length) :
    ∃ dab dba dbc dac, testDiff a b = .ok dab ∧ testDiff b a = .ok dba ∧ testDiff b c = .ok dbc ∧ testDiff a c = .ok dac ∧
      0 ≤ dab ∧ dba = dab ∧ (dab = 0 ↔ a = b) ∧ dac ≤ dab + dbc ∧
      (∀ lim, testDiffReports dab lim = true ↔ lim < ∑ i : Fin a.length, |a[i] - b[(i : ℕ)]'(by omega)|) := by
  have hd : ∀ (u w : List ℝ), u.length = w.length → testDiff u w = .ok ((u.zip w).map fun p => |p.1 - p.2|).sum := by
    intro u w h
    unfold testDiff broadcast1d
    rw [if_pos h]
    rfl
  refine ⟨_, _, _, _, hd a b hab, hd b a hab.symm, hd b c hbc, hd a c (hab.trans hbc), ?_, ?_, ?_, ?_, ?_⟩
  · exact List.sum_nonneg (by simp only [List.mem_map]; rintro _ ⟨p, -, rfl⟩; exact abs_nonneg _)
  · clear hd hbc
    induction a generalizing b with
    | nil => cases b <;> simp at hab ⊢
    | cons x a ih =>
      cases b with
      | nil => simp at hab
      | cons y b =>
        simp only [List.zip_cons_cons, List.map_cons, List.sum_cons]
        rw [ih b (by simpa using hab), abs_sub_comm]
  · clear hd hbc
    induction a generalizing b with
    | nil => cases b <;> simp at hab ⊢
    | cons x a ih =>
      cases b with
      | nil => simp at hab
      | cons y b =>
        simp only [List.zip_cons_cons, List.map_cons, List.sum_cons, List.cons.injEq]
        have h0 : 0 ≤ ((a.zip b).map fun p => |p.1 - p.2|).sum :=
          List.sum_nonneg (by simp only [List.mem_map]; rintro _ ⟨p, -, rfl⟩; exact abs_nonneg _)
        rw [add_eq_zero_iff_of_nonneg (abs_nonneg _) h0, ih b (by simpa using hab), abs_eq_zero, sub_eq_zero]
  · clear hd
    induction a generalizing b c with
    | nil => cases b <;> cases c <;> simp at hab hbc ⊢
    | cons x a ih =>
      cases b with
      | nil => simp at hab
      | cons y b =>
        cases c with
        | nil => simp at hbc
        | cons z c =>
          simp only [List.zip_cons_cons, List.map_cons, List.sum_cons]
          have := ih b c (by simpa using hab) (by simpa using hbc)
          have := abs_sub_le x y z
          linarith
  · intro lim
    have hsum : ((a.zip b).map fun p => |p.1 - p.2|).sum = ∑ i : Fin a.length, |a[i] - b[(i : ℕ)]'(by omega)| := by
      rw [← List.sum_ofFn]
      congr 1
      refine List.ext_getElem (by simp [hab]) fun n _ _ => by simp
    rw [hsum]
    simp [testDiffReports]

/-- **C109** Arrays of different size are rejected with `ValueError`, except that a single value is compared with every element of the other array. -/
theorem C109_sizes (a b : List ℝ) (h : a.length ≠ b.length) :
    (a.length ≠ 1 → b.length ≠ 1 → testDiff a b = .error .valueError) ∧
    (∀ x, a = [x] → testDiff a b = .ok (b.map fun y => |x - y|).sum) ∧ ∀ y, b = [y] → testDiff a b = .ok (a.map fun x => |x - y|).sum := by
  refine ⟨fun ha hb => ?_, fun x hx => ?_, fun y hy => ?_⟩
  · unfold testDiff broadcast1d
    rw [if_neg h]
    match a, b with
    | [_], _ => simp at ha
    | [], [_] => simp at hb
    | _ :: _ :: _, [_] => simp at hb
    | [], [] => rfl
    | [], _ :: _ :: _ => rfl
    | _ :: _ :: _, [] => rfl
    | _ :: _ :: _, _ :: _ :: _ => rfl
  · subst hx
    unfold testDiff broadcast1d
    rw [if_neg h]
    simp [Except.map, Function.comp_def]
  · subst hy
    unfold testDiff broadcast1d
    rw [if_neg h]
    match a, h with
    | [], _ => rfl
    | [_], h => simp at h
    | x :: y' :: l, _ => simp [Except.map, Function.comp_def]

/-- C109: `[1, 2]` and `[1, 4]` differ by 2, which is reported with the default limit; `[1, 2]` and `[1, 2, 3]` cannot be compared. -/
example : testDiff [1, 2] [1, 4] = .ok 2 ∧ testDiffReports 2 1e-6 = true ∧ testDiff [1, 2] [1, 2, 3] = .error .valueError := by
  refine ⟨?_, ?_, (C109_sizes [1, 2] [1, 2, 3] (by simp)).1 (by simp) (by simp)⟩
  · obtain ⟨d, _, _, _, h1, -, -, -, -, -, -, -, h9⟩ := C109_distance [1, 2] [1, 4] [1, 4] rfl rfl
    rw [h1]
    simp [testDiff, broadcast1d, Except.map] at h1
    rw [← h1]; norm_num
  · simp only [testDiffReports]; norm_num

end Verif.Utils
