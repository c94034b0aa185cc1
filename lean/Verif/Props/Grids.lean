import Verif.Proofs.GridLists
import Verif.Props.ShFormats

/-!
C22 (transform round trip on quadrature grids), C27 (sizes, weights and ranges of the analytic grids), C28 (design loaders).
-/

namespace Verif.Props
open Real Polynomial Verif.Sph Verif.Grids

/-- Specification of `np.polynomial.legendre.leggauss(m)`: `m` nodes inside `(-1, 1)` and `m` weights, exact on polynomials of
degree up to `2m-1`. -/
structure IsGaussLegendre (m : ℕ) (r : List ℝ × List ℝ) : Prop where
  nodes : r.1.length = m
  weights : r.2.length = m
  inside : ∀ x ∈ r.1, -1 < x ∧ x < 1
  exact : ∀ p : ℝ[X], p.natDegree ≤ 2 * m - 1 →
    (List.zipWith (fun w x => w * p.eval x) r.2 r.1).sum = ∫ x in (-1 : ℝ)..1, p.eval x

/-! ### Grids as product grids -/

theorem equalAngleZen_length (n : ℕ) : (equalAngleZen n).length = 2 * n + 2 := by
  simp [equalAngleZen, length_linspaceOpen]

theorem equalAngleZen_getD (n : ℕ) {i : ℕ} (h : i < 2 * n + 2) : (equalAngleZen n).getD i 0
    = i * (π / ((2 * n + 2 : ℕ) : ℝ)) + π / ((2 * n + 2 : ℕ) : ℝ) / 2 := by
  unfold equalAngleZen
  rw [map_getD _ _ (by rw [length_linspaceOpen]; exact h), linspaceOpen_getD _ h]

theorem equalAngle_hex (N : ℕ) (p : ℝ[X]) (hp : p.natDegree ≤ 2 * N + 1) :
    ∑ i ∈ Finset.range (equalAngleZen N).length,
      (((equalAngleZen N).map (equalAngleWeight N)).map (· / ((N : ℝ) + 1))).getD i 0 * p.eval (cos ((equalAngleZen N).getD i 0))
      = π / (N + 1) * J p := by
  have h := equalAngle_exact N p (by omega)
  rw [equalAngleZen_length]
  have e : ∀ i ∈ Finset.range (2 * N + 2),
      (((equalAngleZen N).map (equalAngleWeight N)).map (· / ((N : ℝ) + 1))).getD i 0 * p.eval (cos ((equalAngleZen N).getD i 0))
      = 1 / (N + 1) * (equalAngleWeight N (i * (π / ((2 * N + 2 : ℕ) : ℝ)) + π / ((2 * N + 2 : ℕ) : ℝ) / 2)
        * p.eval (cos (i * (π / ((2 * N + 2 : ℕ) : ℝ)) + π / ((2 * N + 2 : ℕ) : ℝ) / 2))) := by
    intro i hi
    have hi := Finset.mem_range.1 hi
    rw [map_getD _ _ (by rw [List.length_map, equalAngleZen_length]; exact hi), map_getD _ _ (by rw [equalAngleZen_length]; exact hi),
      equalAngleZen_getD _ hi]
    ring
  rw [Finset.sum_congr rfl e, ← Finset.mul_sum, h]; ring

theorem zipWith_sum (f : ℝ → ℝ → ℝ) (l l' : List ℝ) (h : l.length = l'.length) :
    (List.zipWith f l l').sum = ∑ i ∈ Finset.range l'.length, f (l.getD i 0) (l'.getD i 0) := by
  induction l generalizing l' with
  | nil => cases l' <;> simp at h ⊢
  | cons a l ih =>
    cases l' with
    | nil => simp at h
    | cons b l' =>
      rw [List.zipWith_cons_cons, List.sum_cons, ih l' (by simpa using h), List.length_cons, Finset.sum_range_succ']
      simp [add_comm]

theorem gauss_hex (N : ℕ) (r : List ℝ × List ℝ) (hr : IsGaussLegendre (N + 1) r) (p : ℝ[X]) (hp : p.natDegree ≤ 2 * N + 1) :
    ∑ i ∈ Finset.range (r.1.map arccos).length, (r.2.map (· * (π / ((N : ℝ) + 1)))).getD i 0 * p.eval (cos ((r.1.map arccos).getD i 0))
      = π / (N + 1) * J p := by
  have h := hr.exact p (by omega)
  rw [zipWith_sum _ _ _ (by rw [hr.nodes, hr.weights])] at h
  rw [List.length_map]
  have e : ∀ i ∈ Finset.range r.1.length, (r.2.map (· * (π / ((N : ℝ) + 1)))).getD i 0 * p.eval (cos ((r.1.map arccos).getD i 0))
      = π / (N + 1) * (r.2.getD i 0 * p.eval (r.1.getD i 0)) := by
    intro i hi
    have hi := Finset.mem_range.1 hi
    have hmem : r.1.getD i 0 ∈ r.1 := by rw [List.getD_eq_getElem _ _ hi]; exact List.getElem_mem hi
    rw [map_getD _ _ (by rw [hr.weights, ← hr.nodes]; exact hi), map_getD _ _ hi,
      cos_arccos (hr.inside _ hmem).1.le (hr.inside _ hmem).2.le]
    ring
  rw [Finset.sum_congr rfl e, ← Finset.mul_sum, h]; rfl

/-! ### C22 -/

theorem sht_roundtrip {N S Q : ℕ} (F : Matrix (Fin ((N + 1) ^ 2)) (Fin S) ℝ) (azi zen w : Fin Q → ℝ)
    (hG : (shMat N azi zen).transpose * (Matrix.diagonal w * shMat N azi zen) = 1) (Nopt : Option ℕ)
    (hN : Nopt = none ∨ Nopt = some N) :
    (inverseSht F azi zen Nopt).map (sht (shMat N azi zen) (some w)) = .ok F := by
  have hsub : F.submatrix (Fin.castLE (le_refl ((N + 1) ^ 2))) id = F := by ext i j; rfl
  have key : inverseSht F azi zen Nopt = .ok (shMat N azi zen * F) := by
    rcases hN with h | h
    · subst h
      rw [inverseSht_none F azi zen N (C11_order_square N) le_rfl, hsub]
    · subst h
      unfold inverseSht
      rw [if_neg (by simp)]
      exact (dif_pos (le_refl ((N + 1) ^ 2))).trans (by rw [hsub])
  rw [key]
  show Except.ok _ = Except.ok _
  congr 1
  show (shMat N azi zen).transpose * (Matrix.diagonal w * (shMat N azi zen * F)) = F
  rw [← Matrix.mul_assoc (Matrix.diagonal w), ← Matrix.mul_assoc, hG, Matrix.one_mul]

/-- C22 on the equal angle grid: the weighted transform of order `N` undoes the inverse transform of order `N`. -/
theorem C22_equal_angle (N S : ℕ) (F : Matrix (Fin ((N + 1) ^ 2)) (Fin S) ℝ) {Q : ℕ} (azi zen w : Fin Q → ℝ)
    (hgrid : equalAngle N = (List.ofFn azi, List.ofFn zen, List.ofFn w)) (Nopt : Option ℕ)
    (hN : Nopt = none ∨ Nopt = some N) :
    (inverseSht F azi zen Nopt).map (sht (shMat N azi zen) (some w)) = .ok F := by
  unfold equalAngle at hgrid
  simp only [Prod.mk.injEq] at hgrid
  obtain ⟨h1, h2, h3⟩ := hgrid
  rw [map_npRepeat] at h3
  exact sht_roundtrip F azi zen w (grid_gram azi zen w (equalAngleZen N) _ N (by simp)
    (by rw [equalAngleZen_length]; exact h1.symm) h2.symm h3.symm (equalAngle_hex N)) Nopt hN

/-- C22 on the Gauss-Legendre grid. -/
theorem C22_gauss (leggauss : ℕ → List ℝ × List ℝ) (N S : ℕ) (hl : IsGaussLegendre (N + 1) (leggauss (N + 1)))
    (F : Matrix (Fin ((N + 1) ^ 2)) (Fin S) ℝ) {Q : ℕ} (azi zen w : Fin Q → ℝ)
    (hgrid : gauss leggauss N = (List.ofFn azi, List.ofFn zen, List.ofFn w)) (Nopt : Option ℕ)
    (hN : Nopt = none ∨ Nopt = some N) :
    (inverseSht F azi zen Nopt).map (sht (shMat N azi zen) (some w)) = .ok F := by
  unfold gauss at hgrid
  simp only [Prod.mk.injEq] at hgrid
  obtain ⟨h1, h2, h3⟩ := hgrid
  rw [map_npRepeat] at h3
  exact sht_roundtrip F azi zen w (grid_gram azi zen w _ _ N (by rw [List.length_map, List.length_map, hl.nodes, hl.weights])
    (by rw [List.length_map, hl.nodes]; exact h1.symm) h2.symm h3.symm (gauss_hex N _ hl)) Nopt hN

/-! ### C27 -/

theorem mem_linspaceOpen {s x : ℝ} (hs : 0 < s) {n : ℕ} (h : x ∈ linspaceOpen s n) : 0 ≤ x ∧ x ≤ s - s / n ∧ 0 < n := by
  unfold linspaceOpen at h
  rw [List.mem_map] at h
  obtain ⟨k, hk, rfl⟩ := h
  have hk := List.mem_range.1 hk
  have hn : (0 : ℝ) < n := by exact_mod_cast (by omega : 0 < n)
  refine ⟨by positivity, ?_, by omega⟩
  have : (k : ℝ) + 1 ≤ n := by exact_mod_cast hk
  have h2 : (n : ℝ) * (s / n) = s := by field_simp
  have h3 : 0 < s / n := by positivity
  nlinarith

theorem mem_npTile {l : List ℝ} {k : ℕ} {x : ℝ} (h : x ∈ npTile l k) : x ∈ l := by
  unfold npTile at h
  rw [List.mem_flatten] at h
  obtain ⟨l', h1, h2⟩ := h
  rw [(List.mem_replicate.1 h1).2] at h2; exact h2

theorem mem_npRepeat {l : List ℝ} {k : ℕ} {x : ℝ} (h : x ∈ npRepeat l k) : x ∈ l := by
  unfold npRepeat at h
  rw [List.mem_flatMap] at h
  obtain ⟨y, h1, h2⟩ := h
  rw [(List.mem_replicate.1 h2).2]; exact h1

theorem azi_range {n P : ℕ} {a : ℝ} (h : a ∈ npTile (linspaceOpen (2 * π) (2 * n + 2)) P) : 0 ≤ a ∧ a < 2 * π := by
  obtain ⟨h1, h2, h3⟩ := mem_linspaceOpen (by positivity) (mem_npTile h)
  refine ⟨h1, ?_⟩
  have : 0 < 2 * π / ((2 * n + 2 : ℕ) : ℝ) := by positivity
  linarith

theorem sum_list_getD (l : List ℝ) : l.sum = ∑ i ∈ Finset.range l.length, l.getD i 0 := by
  induction l with
  | nil => simp
  | cons a l ih => rw [List.sum_cons, ih, List.length_cons, Finset.sum_range_succ']; simp [add_comm]

theorem sum_npRepeat (l : List ℝ) (L : ℕ) : (npRepeat l L).sum = L * l.sum := by
  induction l with
  | nil => simp [npRepeat]
  | cons a l ih =>
    have e : npRepeat (a :: l) L = List.replicate L a ++ npRepeat l L := rfl
    rw [e, List.sum_append, ih, List.sum_replicate, List.sum_cons]; simp; ring

/-- C27 for `equal_angle`: number of points, total weight, ranges of the angles. -/
theorem C27_equal_angle (n : ℕ) :
    (equalAngle n).1.length = (2 * n + 2) ^ 2 ∧ (equalAngle n).2.1.length = (2 * n + 2) ^ 2
    ∧ (equalAngle n).2.2.length = (2 * n + 2) ^ 2 ∧ (equalAngle n).2.2.sum = 4 * π
    ∧ (∀ a ∈ (equalAngle n).1, 0 ≤ a ∧ a < 2 * π) ∧ ∀ z ∈ (equalAngle n).2.1, 0 < z ∧ z < π := by
  have hz := equalAngleZen_length n
  refine ⟨?_, ?_, ?_, ?_, fun a h => azi_range h, fun z h => ?_⟩
  · simp only [equalAngle, length_npTile, length_linspaceOpen]; ring
  · simp only [equalAngle, length_npRepeat, hz]; ring
  · simp only [equalAngle, List.length_map, length_npRepeat, hz]; ring
  · simp only [equalAngle]
    rw [map_npRepeat, sum_npRepeat, sum_list_getD]
    have h := equalAngle_hex n 1 (by simp)
    simp only [eval_one, mul_one] at h
    rw [List.length_map, List.length_map, h, J_one]
    have : (n : ℝ) + 1 ≠ 0 := by positivity
    push_cast; field_simp; ring
  · have h := mem_npRepeat h
    unfold equalAngleZen at h
    rw [List.mem_map] at h
    obtain ⟨y, hy, rfl⟩ := h
    obtain ⟨h1, h2, _⟩ := mem_linspaceOpen pi_pos hy
    have : 0 < π / ((2 * n + 2 : ℕ) : ℝ) := by positivity
    constructor <;> linarith

example : (equalAngle 3).2.2.sum = 4 * π := (C27_equal_angle 3).2.2.2.1

/-- C27 for `gauss`. -/
theorem C27_gauss (leggauss : ℕ → List ℝ × List ℝ) (n : ℕ) (hl : IsGaussLegendre (n + 1) (leggauss (n + 1))) :
    (gauss leggauss n).1.length = (n + 1) * (2 * n + 2) ∧ (gauss leggauss n).2.1.length = (n + 1) * (2 * n + 2)
    ∧ (gauss leggauss n).2.2.length = (n + 1) * (2 * n + 2) ∧ (gauss leggauss n).2.2.sum = 4 * π
    ∧ (∀ a ∈ (gauss leggauss n).1, 0 ≤ a ∧ a < 2 * π) ∧ ∀ z ∈ (gauss leggauss n).2.1, 0 < z ∧ z < π := by
  refine ⟨?_, ?_, ?_, ?_, fun a h => azi_range h, fun z h => ?_⟩
  · simp only [gauss, length_npTile, length_linspaceOpen]
  · simp only [gauss, length_npRepeat, List.length_map, hl.nodes]
  · simp only [gauss, List.length_map, length_npRepeat, hl.weights]
  · simp only [gauss]
    rw [map_npRepeat, sum_npRepeat, sum_list_getD]
    have h := gauss_hex n _ hl 1 (by simp)
    simp only [eval_one, mul_one, List.length_map] at h
    rw [List.length_map, hl.weights]
    rw [hl.nodes] at h
    rw [h, J_one]
    have : (n : ℝ) + 1 ≠ 0 := by positivity
    push_cast; field_simp; ring
  · have h := mem_npRepeat h
    rw [List.mem_map] at h
    obtain ⟨y, hy, rfl⟩ := h
    have := hl.inside y hy
    exact ⟨arccos_pos.2 this.2, by rw [arccos_lt_pi]; exact this.1⟩

/-- C27 for `equal_polar_angle`: `2n+1` equispaced angles over one turn, weights of total one. -/
theorem C27_equal_polar_angle (n : ℕ) :
    (equalPolarAngle n).1.length = 2 * n + 1 ∧ (equalPolarAngle n).2.length = 2 * n + 1 ∧ (equalPolarAngle n).2.sum = 1
    ∧ ∀ k (h : k < (equalPolarAngle n).1.length), (equalPolarAngle n).1[k] = 2 * π * k / (2 * n + 1) := by
  refine ⟨by simp [equalPolarAngle, length_linspaceOpen], by simp [equalPolarAngle], ?_, ?_⟩
  · simp only [equalPolarAngle, List.sum_replicate]
    have : (2 * (n : ℝ) + 1) ≠ 0 := by positivity
    simp
    field_simp
  · intro k h
    simp only [equalPolarAngle, linspaceOpen, List.getElem_map, List.getElem_range]
    push_cast; ring

example : (equalPolarAngle 2).2.sum = 1 := (C27_equal_polar_angle 2).2.2.1

/-! ### The Gauss-Legendre specification is met by the one and two point rules -/

theorem isGauss_two : IsGaussLegendre 2 ([-(1 / √3), 1 / √3], [1, 1]) := by
  have h3 : √3 * √3 = (3 : ℝ) := Real.mul_self_sqrt (by norm_num)
  have h3p : (0 : ℝ) < √3 := by positivity
  have hlt : 1 / √3 < 1 := by rw [div_lt_one h3p]; nlinarith
  have hsq : (1 / √3) ^ 2 = (1 / 3 : ℝ) := by rw [div_pow, sq √3, h3]; norm_num
  refine ⟨rfl, rfl, ?_, ?_⟩
  · intro x hx
    simp only [List.mem_cons, List.not_mem_nil, or_false] at hx
    have : 0 < 1 / √3 := by positivity
    rcases hx with rfl | rfl <;> constructor <;> linarith
  · intro p hp
    obtain ⟨a, b, c, d, rfl⟩ : ∃ a b c d : ℝ, p = C a * X ^ 3 + C b * X ^ 2 + C c * X + C d := by
      have hp' : p.natDegree < 4 := by omega
      refine ⟨p.coeff 3, p.coeff 2, p.coeff 1, p.coeff 0, ?_⟩
      conv_lhs => rw [p.as_sum_range_C_mul_X_pow' hp']
      simp [Finset.sum_range_succ]; ring
    have hi : ∫ x in (-1 : ℝ)..1, (C a * X ^ 3 + C b * X ^ 2 + C c * X + C d).eval x = 2 / 3 * b + 2 * d := by
      have := J_derivative (C (a / 4) * X ^ 4 + C (b / 3) * X ^ 3 + C (c / 2) * X ^ 2 + C d * X)
      have e : derivative (C (a / 4) * X ^ 4 + C (b / 3) * X ^ 3 + C (c / 2) * X ^ 2 + C d * X)
          = C a * X ^ 3 + C b * X ^ 2 + C c * X + C d := by
        simp only [derivative_add, derivative_C_mul, derivative_X_pow, derivative_X]
        have q1 : C (a / 4) * (C (4 : ℝ)) = C a := by rw [← C_mul]; congr 1; ring
        have q2 : C (b / 3) * (C (3 : ℝ)) = C b := by rw [← C_mul]; congr 1; ring
        have q3 : C (c / 2) * (C (2 : ℝ)) = C c := by rw [← C_mul]; congr 1; ring
        rw [← q1, ← q2, ← q3]
        norm_num
        ring
      rw [e] at this
      unfold J at this
      rw [this]; simp; ring
    rw [hi]
    simp only [List.zipWith_cons_cons, List.zipWith_nil_right, List.sum_cons, List.sum_nil, eval_add, eval_mul, eval_C,
      eval_pow, eval_X]
    set t := 1 / √3
    linear_combination (2 * b) * hsq

/-- C22/C27 hypotheses are met: the two-point rule gives a grid of order one with eight points. -/
example (F : Matrix (Fin ((1 + 1) ^ 2)) (Fin 3) ℝ) : ∃ azi zen w : Fin 8 → ℝ,
    gauss (fun _ => ([-(1 / √3), 1 / √3], [1, 1])) 1 = (List.ofFn azi, List.ofFn zen, List.ofFn w) ∧
    (inverseSht F azi zen none).map (sht (shMat 1 azi zen) (some w)) = .ok F := by
  have hG := C27_gauss (fun _ => ([-(1 / √3), 1 / √3], [1, 1])) 1 isGauss_two
  have toFn : ∀ l : List ℝ, l.length = 8 → ∃ u : Fin 8 → ℝ, l = List.ofFn u := fun l h =>
    ⟨fun q => l[q]'(by omega), by
      apply List.ext_getElem (by simp [h])
      intro i h1 h2; rw [List.getElem_ofFn]; rfl⟩
  obtain ⟨a, ha⟩ := toFn _ hG.1
  obtain ⟨z, hz⟩ := toFn _ hG.2.1
  obtain ⟨w, hw⟩ := toFn _ hG.2.2.1
  have hgrid : gauss (fun _ => ([-(1 / √3), 1 / √3], [1, 1])) 1 = (List.ofFn a, List.ofFn z, List.ofFn w) := by
    rw [← ha, ← hz, ← hw]
  exact ⟨a, z, w, hgrid, C22_gauss _ 1 3 isGauss_two F a z w hgrid none (.inl rfl)⟩

/-- The equal angle grid of every order is a triple of functions, so `C22_equal_angle` applies to it. -/
example (N : ℕ) : ∃ azi zen w : Fin ((2 * N + 2) ^ 2) → ℝ, equalAngle N = (List.ofFn azi, List.ofFn zen, List.ofFn w) := by
  have hG := C27_equal_angle N
  have toFn : ∀ l : List ℝ, l.length = (2 * N + 2) ^ 2 → ∃ u : Fin ((2 * N + 2) ^ 2) → ℝ, l = List.ofFn u := fun l h =>
    ⟨fun q => l[q]'(by omega), by
      apply List.ext_getElem (by simp [h])
      intro i h1 h2; rw [List.getElem_ofFn]; rfl⟩
  obtain ⟨a, ha⟩ := toFn _ hG.1
  obtain ⟨z, hz⟩ := toFn _ hG.2.1
  obtain ⟨w, hw⟩ := toFn _ hG.2.2.1
  exact ⟨a, z, w, by rw [← ha, ← hz, ← hw]⟩

/-! ### C28 -/

theorem loadNext_ok {α : Type} (lo hi : ℤ) (mat : ℤ → Option α) (degree : ℤ) (d : α) (ws : List ℤ) :
    loadNext lo hi mat degree = .ok (d, ws) ↔ lo ≤ degree ∧ ∃ k : ℕ, degree + k ≤ hi ∧ mat (degree + k) = some d
      ∧ (∀ j : ℕ, j < k → mat (degree + j) = none) ∧ ws = (List.range k).map fun (j : ℕ) => degree + (j : ℤ) := by
  induction degree using loadNext.induct lo hi mat generalizing ws with
  | case1 x h =>
    rw [loadNext, if_pos h]
    constructor
    · intro h; simp at h
    · rintro ⟨_, k, h1, _⟩; omega
  | case2 x h1 h2 =>
    rw [loadNext, if_neg h1, if_pos h2]
    constructor
    · intro h; simp at h
    · rintro ⟨h, _⟩; omega
  | case3 x h1 h2 d' hd =>
    rw [loadNext, if_neg h1, if_neg h2]
    simp only [hd]
    constructor
    · intro h
      simp only [Except.ok.injEq, Prod.mk.injEq] at h
      refine ⟨by omega, 0, by simp; omega, by simp [hd, h.1], by omega, by simp [h.2]⟩
    · rintro ⟨_, k, h3, h4, h5, h6⟩
      rcases k with _ | k
      · simp at h4 h6; rw [h6]; rw [hd] at h4; simp at h4; rw [h4]
      · have := h5 0 (by omega); simp [hd] at this
  | case4 x h1 h2 hd ih =>
    rw [loadNext, if_neg h1, if_neg h2]
    simp only [hd]
    constructor
    · intro h
      match hr : loadNext lo hi mat (x + 1) with
      | .error e => rw [hr] at h; simp [bind, Except.bind] at h
      | .ok (d', ws') =>
        rw [hr] at h
        have h : d' = d ∧ x :: ws' = ws := by
          have : (Except.ok (d', x :: ws') : Py (α × List ℤ)) = .ok (d, ws) := h
          simpa using this
        obtain ⟨rfl, rfl⟩ := h
        obtain ⟨h3, k, h4, h5, h6, h7⟩ := (ih ws').1 hr
        refine ⟨by omega, k + 1, by push_cast; omega, ?_, ?_, ?_⟩
        · rw [← h5]; congr 1; push_cast; ring
        · intro j hj
          rcases j with _ | j
          · simpa using hd
          · rw [← h6 j (by omega)]; congr 1; push_cast; ring
        · rw [List.range_succ_eq_map, List.map_cons, List.map_map, h7]
          simp only [Nat.cast_zero, add_zero, List.cons.injEq, true_and]
          refine List.map_congr_left fun j _ => ?_
          show _ = x + ((j + 1 : ℕ) : ℤ)
          push_cast; ring
    · rintro ⟨_, k, h3, h4, h5, h6⟩
      rcases k with _ | k
      · simp [hd] at h4
      · have hr : loadNext lo hi mat (x + 1) = .ok (d, (List.range k).map fun (j : ℕ) => x + 1 + (j : ℤ)) := by
          refine (ih _).2 ⟨by omega, k, by push_cast at h3; omega, ?_, ?_, rfl⟩
          · rw [← h4]; congr 1; push_cast; ring
          · intro j hj; rw [← h5 (j + 1) (by omega)]; congr 1; push_cast; ring
        rw [hr]
        show (Except.ok (d, x :: _) : Py (α × List ℤ)) = _
        congr 2
        rw [h6, List.range_succ_eq_map, List.map_cons, List.map_map]
        simp only [Nat.cast_zero, add_zero, List.cons.injEq, true_and]
        refine List.map_congr_left fun j _ => ?_
        show _ = x + ((j + 1 : ℕ) : ℤ)
        push_cast; ring

theorem loadNext_error {α : Type} (lo hi : ℤ) (mat : ℤ → Option α) (degree : ℤ) (e : PyErr) (h : loadNext lo hi mat degree = .error e) :
    e = .valueError := by
  induction degree using loadNext.induct lo hi mat with
  | case1 x h1 => rw [loadNext, if_pos h1] at h; simpa using h.symm
  | case2 x h1 h2 => rw [loadNext, if_neg h1, if_pos h2] at h; simpa using h.symm
  | case3 x h1 h2 d hd => rw [loadNext, if_neg h1, if_neg h2] at h; simp [hd] at h
  | case4 x h1 h2 hd ih =>
    rw [loadNext, if_neg h1, if_neg h2] at h
    simp only [hd] at h
    match hr : loadNext lo hi mat (x + 1) with
    | .error e' =>
      rw [hr] at h
      have h : (Except.error e' : Py (α × List ℤ)) = .error e := h
      simp at h; subst h; exact ih hr
    | .ok r => rw [hr] at h; simp [bind, Except.bind, pure, Except.pure] at h

/-- The loader finds the smallest tabulated degree not below the requested one and warns once per skipped degree; otherwise
`ValueError`. -/
def NextDegree {α : Type} (lo hi : ℤ) (load : (ℤ → Option α) → ℤ → Py (α × List ℤ)) : Prop :=
  ∀ (mat : ℤ → Option α) (degree : ℤ),
    (∀ d ws, load mat degree = .ok (d, ws) ↔ lo ≤ degree ∧ ∃ k : ℕ, degree + k ≤ hi ∧ mat (degree + k) = some d
      ∧ (∀ j : ℕ, j < k → mat (degree + j) = none) ∧ ws = (List.range k).map fun (j : ℕ) => degree + (j : ℤ)) ∧
    ((degree < lo ∨ degree > hi ∨ ∀ k, degree ≤ k → k ≤ hi → mat k = none) ↔ load mat degree = .error .valueError)

theorem nextDegree_loadNext {α : Type} (lo hi : ℤ) : NextDegree (α := α) lo hi (loadNext lo hi) := by
  intro mat degree
  refine ⟨fun d ws => loadNext_ok lo hi mat degree d ws, ?_⟩
  constructor
  · intro h
    match hr : loadNext lo hi mat degree with
    | .error e => rw [loadNext_error _ _ _ _ _ hr]
    | .ok (d, ws) =>
      obtain ⟨h1, k, h2, h3, _⟩ := (loadNext_ok _ _ _ _ _ _).1 hr
      rcases h with h | h | h
      · omega
      · omega
      · rw [h _ (by omega) h2] at h3; simp at h3
  · intro h
    by_contra hc
    push Not at hc
    obtain ⟨h1, h2, k, h3, h4, h5⟩ := hc
    have hex : ∃ j : ℕ, mat (degree + j) ≠ none ∧ degree + j ≤ hi := ⟨(k - degree).toNat, by
      rw [Int.toNat_of_nonneg (by omega)]; simpa using ⟨h5, h4⟩⟩
    classical
    have hm := Nat.find_spec hex
    obtain ⟨d, hd⟩ := Option.ne_none_iff_exists'.1 hm.1
    have := (loadNext_ok lo hi mat degree d _).2 ⟨h1, Nat.find hex, hm.2, hd, fun j hj => by
      by_contra hne
      exact Nat.find_min hex hj ⟨hne, by have := hm.2; omega⟩, rfl⟩
    rw [this] at h; simp at h

/-- C28 for `load_n_design`. -/
theorem C28_n_design {α : Type} : NextDegree (α := α) 1 124 loadNDesign := nextDegree_loadNext 1 124
/-- C28 for `load_lebedev`. -/
theorem C28_lebedev {α : Type} : NextDegree (α := α) 3 131 loadLebedev := nextDegree_loadNext 3 131
/-- C28 for `load_maxDet`. -/
theorem C28_maxDet {α : Type} : NextDegree (α := α) 1 200 loadMaxDet := nextDegree_loadNext 1 200

example : loadLebedev (fun k => if k % 2 = 1 then some k else none) 4 = .ok (5, [4]) :=
  ((C28_lebedev _ 4).1 5 [4]).2 ⟨by norm_num, 1, by norm_num, by simp, fun j hj => by
    have : j = 0 := by omega
    subst this; simp, by simp⟩

theorem pyGet_nonneg {α : Type} (l : List α) (i : ℤ) (h : 0 ≤ i) (h2 : i < l.length) :
    pyGet l i = .ok (l[i.toNat]'(by omega)) := by
  unfold pyGet
  rw [if_neg (show ¬ i < 0 by omega)]
  show (if i < 0 then _ else _) = _
  rw [if_neg (show ¬ i < 0 by omega), List.getElem?_eq_getElem (show i.toNat < l.length by omega)]

/-- C28 for `load_t_design`: exactly the degrees 1..21, degree `t` is entry `t-1` of the table of 21 designs. -/
theorem C28_t_design {α : Type} (t_designs : List α) (hlen : t_designs.length = 21) (degree : ℤ) :
    (∀ (h1 : 1 ≤ degree) (h2 : degree ≤ 21), loadTDesign t_designs degree = .ok (t_designs[(degree - 1).toNat]'(by omega)))
    ∧ (¬ (1 ≤ degree ∧ degree ≤ 21) → loadTDesign t_designs degree = .error .valueError) := by
  unfold loadTDesign
  constructor
  · intro h1 h2
    rw [if_neg (by omega), if_neg (by omega)]
    exact pyGet_nonneg t_designs _ (by omega) (by omega)
  · intro h
    by_cases h1 : degree > 21
    · rw [if_pos h1]
    · rw [if_neg h1, if_pos (by omega)]

example : loadTDesign (List.range 21) 10 = .ok 9 ∧ loadTDesign (List.range 21) 22 = .error .valueError :=
  ⟨(C28_t_design _ (by simp) 10).1 (by norm_num) (by norm_num), (C28_t_design _ (by simp) 22).2 (by norm_num)⟩

/-- C28 for `load_Fliege_Maier_nodes`: exactly the orders 2..30, order `n` is entry `n-1` of the table of 30 grids. -/
theorem C28_fliege_maier {α : Type} (nodes : List α) (hlen : nodes.length = 30) (order : ℤ) :
    (∀ (h1 : 2 ≤ order) (h2 : order ≤ 30), loadFliegeMaier nodes order = .ok (nodes[(order - 1).toNat]'(by omega)))
    ∧ (¬ (2 ≤ order ∧ order ≤ 30) → loadFliegeMaier nodes order = .error .valueError) := by
  unfold loadFliegeMaier
  constructor
  · intro h1 h2
    rw [if_neg (by omega), if_neg (by omega)]
    exact pyGet_nonneg nodes _ (by omega) (by omega)
  · intro h
    by_cases h1 : order > 30
    · rw [if_pos h1]
    · rw [if_neg h1, if_pos (by omega)]

example : loadFliegeMaier (List.range 30) 2 = .ok 1 := (C28_fliege_maier _ (by simp) 2).1 (by norm_num) (by norm_num)

end Verif.Props
