import Verif.Model.PlotMisc
import Verif.Props.Imaginary
import Verif.Props.PlotMaps
import Verif.Props.HullChecks
import Verif.Props.Triangles

/-! C130-C133: the last figures of `plot.py`. -/

namespace Verif.Props
open Real Verif.Utils Verif.Decoder Verif.Plot Polynomial

/-! ### C130 -/

theorem polyOf_append (c : List ℝ) (a : ℝ) : polyOf (c ++ [a]) = polyOf c * X + C (a : ℂ) := by
  unfold polyOf
  rw [List.foldl_append]; rfl

theorem polyOf_eval (c : List ℝ) (z : ℂ) : (polyOf c).eval z = ∑ k ∈ Finset.range c.length, (c.getD k 0 : ℂ) * z ^ (c.length - 1 - k) := by
  induction c using List.reverseRecOn with
  | nil => simp [polyOf]
  | append_singleton c a ih =>
    rw [polyOf_append, eval_add, eval_mul, eval_X, eval_C, ih, List.length_append, List.length_singleton, Finset.sum_range_succ, Finset.sum_mul]
    congr 1
    · refine Finset.sum_congr rfl fun k hk => ?_
      have hk := Finset.mem_range.1 hk
      rw [List.getD_eq_getElem?_getD, List.getD_eq_getElem?_getD, List.getElem?_append_left hk, mul_assoc, ← pow_succ]
      congr 2
      omega
    · simp [List.getD_eq_getElem?_getD]

theorem polyOf_lead (lead : ℝ) (hl : lead ≠ 0) (rest : List ℝ) :
    (polyOf (lead :: rest)).natDegree = rest.length ∧ (polyOf (lead :: rest)).leadingCoeff = lead := by
  induction rest using List.reverseRecOn with
  | nil => simp [polyOf]
  | append_singleton c a ih =>
    rw [← List.cons_append, polyOf_append]
    have hne : polyOf (lead :: c) ≠ 0 := by
      intro h
      rw [h] at ih
      have := ih.2
      simp at this
      exact hl (by exact_mod_cast this.symm)
    have hd : (polyOf (lead :: c) * X).natDegree = c.length + 1 := by rw [natDegree_mul_X hne, ih.1]
    constructor
    · rw [natDegree_add_C, hd]; simp
    · rw [leadingCoeff_add_of_degree_lt', leadingCoeff_mul_X, ih.2]
      rw [degree_eq_natDegree (p := polyOf (lead :: c) * X) (by simpa using hne), hd]
      exact lt_of_le_of_lt degree_C_le (by exact_mod_cast Nat.succ_pos _)

theorem polyOf_zeros (j : ℕ) (c : List ℝ) : polyOf (List.replicate j 0 ++ c) = polyOf c := by
  unfold polyOf
  rw [List.foldl_append]
  congr 1
  induction j with
  | zero => rfl
  | succ j ih => rw [List.replicate_succ, List.foldl_cons]; simpa using ih

/-- **C130** The drawn zeros are those of the polynomial with the given coefficients, as often as it vanishes there: up to its first coefficient other than
zero it is the product of the distances to them, at every point of the plane; the drawn poles likewise. -/
theorem C130_factors (zPlane : Bool) (auto : (ℝ × ℝ) × (ℝ × ℝ)) (c : List ℝ) (j : ℕ) (lead : ℝ) (hl : lead ≠ 0) (rest : List ℝ)
    (hc : c = List.replicate j 0 ++ lead :: rest) (d : List ℝ) :
    (zeropole c d zPlane auto).zeros.card = rest.length ∧ (zeropole d c zPlane auto).poles.card = rest.length ∧
    ∀ z : ℂ, (∑ k ∈ Finset.range c.length, (c.getD k 0 : ℂ) * z ^ (c.length - 1 - k)) = lead * ((zeropole c d zPlane auto).zeros.map (z - ·)).prod ∧
      (∑ k ∈ Finset.range c.length, (c.getD k 0 : ℂ) * z ^ (c.length - 1 - k)) = lead * ((zeropole d c zPlane auto).poles.map (z - ·)).prod := by
  obtain ⟨h1, h2⟩ := polyOf_lead lead hl rest
  have hp : polyOf c = polyOf (lead :: rest) := by rw [hc, polyOf_zeros]
  have hs : (polyOf (lead :: rest)).Splits := IsAlgClosed.splits _
  have hcard : (npRoots c).card = rest.length := by
    unfold npRoots
    rw [hp, ← h1]
    exact (splits_iff_card_roots.1 hs)
  have hprod : ∀ z : ℂ, (∑ k ∈ Finset.range c.length, (c.getD k 0 : ℂ) * z ^ (c.length - 1 - k)) = lead * ((npRoots c).map (z - ·)).prod := by
    intro z
    rw [← polyOf_eval, hp]
    unfold npRoots
    rw [hp, ← h2]
    exact hs.eval_eq_prod_roots z
  exact ⟨hcard, hcard, fun z => ⟨hprod z, hprod z⟩⟩

/-- **C130** In the z plane the unit circle is drawn and lies inside of the limits, which include the automatic ones; otherwise these are kept. -/
theorem C130_limits (b a : List ℝ) (auto : (ℝ × ℝ) × (ℝ × ℝ)) :
    (zeropole b a true auto).circle = true ∧ (zeropole b a false auto).circle = false ∧
    (∀ z : ℂ, ‖z‖ ≤ 1 ∨ z.re ∈ Set.Icc auto.1.1 auto.1.2 → z.re ∈ Set.Icc (zeropole b a true auto).xlim.1 (zeropole b a true auto).xlim.2) ∧
    (∀ z : ℂ, ‖z‖ ≤ 1 ∨ z.im ∈ Set.Icc auto.2.1 auto.2.2 → z.im ∈ Set.Icc (zeropole b a true auto).ylim.1 (zeropole b a true auto).ylim.2) ∧
    ((zeropole b a false auto).xlim, (zeropole b a false auto).ylim) = auto := by
  refine ⟨rfl, rfl, fun z hz => ?_, fun z hz => ?_, rfl⟩
  · have := abs_le.1 (Complex.abs_re_le_norm z)
    simp only [zeropole, if_true, Set.mem_Icc, min_le_iff, le_max_iff] at hz ⊢
    rcases hz with hz | hz
    · exact ⟨Or.inl (by norm_num; linarith), Or.inl (by norm_num; linarith)⟩
    · exact ⟨Or.inr hz.1, Or.inr hz.2⟩
  · have := abs_le.1 (Complex.abs_im_le_norm z)
    simp only [zeropole, if_true, Set.mem_Icc, min_le_iff, le_max_iff] at hz ⊢
    rcases hz with hz | hz
    · exact ⟨Or.inl (by norm_num; linarith), Or.inl (by norm_num; linarith)⟩
    · exact ⟨Or.inr hz.1, Or.inr hz.2⟩

/-- A second order filter with a leading zero: two zeros, and `z ^ 2 - 1` is their product. -/
example (auto : (ℝ × ℝ) × (ℝ × ℝ)) : (zeropole [0, 1, 0, -1] [1] true auto).zeros.card = 2 :=
  (C130_factors true auto [0, 1, 0, -1] 1 1 one_ne_zero [0, -1] rfl [1]).1

/-! ### C131 -/

theorem foldl_min_spec (l : List ℝ) (x : ℝ) : l.foldl min x ≤ x ∧ (∀ v ∈ l, l.foldl min x ≤ v) ∧ (l.foldl min x = x ∨ l.foldl min x ∈ l) := by
  induction l generalizing x with
  | nil => simp
  | cons y l ih =>
    obtain ⟨h1, h2, h3⟩ := ih (min x y)
    simp only [List.foldl_cons, List.mem_cons]
    refine ⟨h1.trans (min_le_left _ _), ?_, ?_⟩
    · rintro v (rfl | hv)
      · exact h1.trans (min_le_right _ _)
      · exact h2 v hv
    · rcases h3 with h3 | h3
      · rcases min_choice x y with h | h
        · left; rw [h3, h]
        · right; left; rw [h3, h]
      · right; right; exact h3

/-- **C131** The limits that `set_aspect_equal3d` sets without an argument are the smallest common ones that include those of all axes. -/
theorem C131_aspect (lims : Fin 3 → ℝ × ℝ) (lo hi : ℝ) :
    (∀ i, (aspectEqual lims none).1 ≤ (lims i).1 ∧ (lims i).2 ≤ (aspectEqual lims none).2) ∧
    ((∀ i, lo ≤ (lims i).1 ∧ (lims i).2 ≤ hi) → lo ≤ (aspectEqual lims none).1 ∧ (aspectEqual lims none).2 ≤ hi) ∧
    aspectEqual lims (some (lo, hi)) = (lo, hi) := by
  refine ⟨?_, fun h => ?_, rfl⟩
  · intro i
    simp only [aspectEqual, min_le_iff, le_max_iff]
    fin_cases i <;> simp
  · simp only [aspectEqual, le_min_iff, max_le_iff]
    exact ⟨⟨⟨(h 0).1, (h 1).1⟩, (h 2).1⟩, ⟨(h 0).2, (h 1).2⟩, (h 2).2⟩

theorem sphericalFunction_ok (qhull : List (ℝ × ℝ × ℝ) → Py (List (ℕ × ℕ × ℕ))) (f azi zen : List ℝ) (r : SphFun) (h : sphericalFunction qhull f azi zen = .ok r) :
    azi.length = f.length ∧ zen.length = f.length ∧ r.points = (f.zip (azi.zip zen)).map (fun t => sph2cart t.2.1 t.2.2 |t.1|) ∧ qhull r.points = .ok r.triangles ∧
    r.colors = f ∧ r.crange = (f.foldl min 0, f.foldl max 1) ∧ r.lim = (-1, 1) := by
  unfold sphericalFunction at h
  by_cases hl : azi.length = f.length ∧ zen.length = f.length
  · rw [if_pos hl] at h
    dsimp only at h
    rcases hq : qhull ((f.zip (azi.zip zen)).map fun t => sph2cart t.2.1 t.2.2 |t.1|) with e | tri
    · rw [hq] at h; cases h
    rw [hq] at h
    change (if f = [] then _ else _) = _ at h
    by_cases hf : f = []
    · rw [if_pos hf] at h; cases h
    · rw [if_neg hf] at h
      have := Except.ok.inj h
      subst this
      exact ⟨hl.1, hl.2, rfl, hq, rfl, rfl, by simp [aspectEqual]⟩
  · rw [if_neg hl] at h; cases h

/-- **C131** Every value is drawn in its direction at the distance of its magnitude, with the value itself as colour; the range of the colours is the smallest
that includes all values and 0 and 1; the triangles are those of the convex hull of the drawn points. -/
theorem C131_points (qhull : List (ℝ × ℝ × ℝ) → Py (List (ℕ × ℕ × ℕ))) (f azi zen : List ℝ) (r : SphFun) (h : sphericalFunction qhull f azi zen = .ok r) :
    r.points.length = f.length ∧ r.colors = f ∧ qhull r.points = .ok r.triangles ∧
    (∀ i < f.length, r.points.getD i 0 = (|f.getD i 0| * (cos (azi.getD i 0) * sin (zen.getD i 0)), |f.getD i 0| * (sin (azi.getD i 0) * sin (zen.getD i 0)),
      |f.getD i 0| * cos (zen.getD i 0))) ∧
    (∀ v ∈ 0 :: 1 :: f, r.crange.1 ≤ v ∧ v ≤ r.crange.2) ∧ r.crange.1 ∈ 0 :: f ∧ r.crange.2 ∈ 1 :: f := by
  obtain ⟨h1, h2, hp, hq, hc, hr, -⟩ := sphericalFunction_ok qhull f azi zen r h
  rw [hr, hp]
  have hmin := foldl_min_spec f 0
  have hmax := foldl_max_spec f 1
  refine ⟨by simp [h1, h2], hc, hp ▸ hq, fun i hi => ?_, ?_, ?_, ?_⟩
  · have ha : i < azi.length := by omega
    have hz : i < zen.length := by omega
    simp only [List.getD_eq_getElem?_getD, List.getElem?_map, List.getElem?_zip_eq_some, List.getElem?_eq_getElem hi, List.getElem?_eq_getElem ha,
      List.getElem?_eq_getElem hz, Option.getD_some]
    rw [List.getElem?_eq_getElem (by simp [h1, h2, hi])]
    simp [sph2cart, mul_assoc]
  · intro v hv
    rcases List.mem_cons.1 hv with rfl | hv
    · exact ⟨hmin.1, le_trans zero_le_one hmax.1⟩
    rcases List.mem_cons.1 hv with rfl | hv
    · exact ⟨le_trans hmin.1 zero_le_one, hmax.1⟩
    · exact ⟨hmin.2.1 v hv, hmax.2.1 v hv⟩
  · rcases hmin.2.2 with h | h
    · exact List.mem_cons.2 (Or.inl h)
    · exact List.mem_cons.2 (Or.inr h)
  · rcases hmax.2.2 with h | h
    · exact List.mem_cons.2 (Or.inl h)
    · exact List.mem_cons.2 (Or.inr h)

/-- **C131** What is rejected: different numbers of values and angles, no values, points without a hull. -/
theorem C131_errors (qhull : List (ℝ × ℝ × ℝ) → Py (List (ℕ × ℕ × ℕ))) (f azi zen : List ℝ) :
    (azi.length ≠ f.length ∨ zen.length ≠ f.length → sphericalFunction qhull f azi zen = .error .valueError) ∧
    (∀ r, qhull [] = .ok r → sphericalFunction qhull [] [] [] = .error .valueError) ∧
    ∀ e, (∀ p, qhull p = .error e) → azi.length = f.length → zen.length = f.length → sphericalFunction qhull f azi zen = .error e := by
  refine ⟨fun h => ?_, fun r hr => ?_, fun e he h1 h2 => ?_⟩
  · unfold sphericalFunction
    rw [if_neg (by tauto)]
  · unfold sphericalFunction
    rw [if_pos ⟨rfl, rfl⟩]
    change (qhull []).bind _ = _
    rw [hr]; rfl
  · unfold sphericalFunction
    rw [if_pos ⟨h1, h2⟩]
    dsimp only
    rw [he]; rfl

/-- **C131** Values of magnitude up to one lie inside of the axes, which reach from -1 to 1. -/
theorem C131_axes_partial (qhull : List (ℝ × ℝ × ℝ) → Py (List (ℕ × ℕ × ℕ))) (f azi zen : List ℝ) (r : SphFun) (h : sphericalFunction qhull f azi zen = .ok r)
    (hf : ∀ v ∈ f, |v| ≤ 1) : ∀ p ∈ r.points, p.1 ∈ Set.Icc r.lim.1 r.lim.2 ∧ p.2.1 ∈ Set.Icc r.lim.1 r.lim.2 ∧ p.2.2 ∈ Set.Icc r.lim.1 r.lim.2 := by
  obtain ⟨h1, h2, hp, hq, hc, hr, hlim⟩ := sphericalFunction_ok qhull f azi zen r h
  intro p hpp
  rw [hp] at hpp
  obtain ⟨t, ht, rfl⟩ := List.mem_map.1 hpp
  have hm : |t.1| ≤ 1 := hf _ (List.of_mem_zip ht).1
  have key : ∀ x y : ℝ, |x| ≤ 1 → |y| ≤ 1 → x * y ∈ Set.Icc (-1 : ℝ) 1 := fun x y hx hy => by
    rw [Set.mem_Icc, ← abs_le, abs_mul]
    exact mul_le_one₀ hx (abs_nonneg _) hy
  have hm' : |(|t.1|)| ≤ 1 := by rwa [abs_abs]
  rw [hlim]
  simp only [sph2cart]
  refine ⟨key _ _ (abs_le.2 (Set.mem_Icc.1 (key _ _ hm' (abs_cos_le_one _)))) (abs_sin_le_one _),
    key _ _ (abs_le.2 (Set.mem_Icc.1 (key _ _ hm' (abs_sin_le_one _)))) (abs_sin_le_one _), key _ _ hm' (abs_cos_le_one _)⟩

/-- `C131_points` and `C131_axes_partial` for a tetrahedron of directions. -/
example : ∃ r, sphericalFunction (fun _ => .ok [(0, 1, 2), (0, 1, 3), (0, 2, 3), (1, 2, 3)]) [1, 1 / 2, -1, 1 / 2] [0, π / 2, 0, π] [π / 2, π / 2, 0, 3] = .ok r ∧
    r.points.length = 4 ∧ ∀ p ∈ r.points, p.1 ∈ Set.Icc r.lim.1 r.lim.2 := by
  refine ⟨_, rfl, (C131_points (fun _ => .ok [(0, 1, 2), (0, 1, 3), (0, 2, 3), (1, 2, 3)]) [1, 1 / 2, -1, 1 / 2] [0, π / 2, 0, π] [π / 2, π / 2, 0, 3] _ rfl).1, fun p hp => ?_⟩
  exact (C131_axes_partial (fun _ => .ok [(0, 1, 2), (0, 1, 3), (0, 2, 3), (1, 2, 3)]) [1, 1 / 2, -1, 1 / 2] [0, π / 2, 0, π] [π / 2, π / 2, 0, 3] _ rfl
    (by intro v hv; fin_cases hv <;> norm_num [abs_le]) p hp).1

/-- **C131** A larger value in direction of an axis lies outside. -/
theorem C131_axes_fails (qhull : List (ℝ × ℝ × ℝ) → Py (List (ℕ × ℕ × ℕ))) (f azi zen : List ℝ) (r : SphFun) (v : ℝ) (hv : 1 < |v|)
    (h : sphericalFunction qhull (v :: f) (0 :: azi) (π / 2 :: zen) = .ok r) : ∃ p ∈ r.points, p.1 ∉ Set.Icc r.lim.1 r.lim.2 := by
  obtain ⟨h1, h2, hp, hq, hc, hr, hlim⟩ := sphericalFunction_ok qhull _ _ _ r h
  refine ⟨sph2cart 0 (π / 2) |v|, ?_, ?_⟩
  · rw [hp]; simp
  · rw [hlim]
    simp only [sph2cart, cos_zero, sin_pi_div_two, mul_one, Set.mem_Icc, not_and, not_le]
    exact fun _ => hv

/-- A tetrahedron of directions, one of the values being two: it is drawn, with the large value outside of the axes. -/
example : ∃ r, sphericalFunction (fun _ => .ok [(0, 1, 2), (0, 1, 3), (0, 2, 3), (1, 2, 3)]) [2, 1, -1, 1 / 2] [0, π / 2, 0, π] [π / 2, π / 2, 0, 3] = .ok r ∧
    (∃ p ∈ r.points, p.1 ∉ Set.Icc r.lim.1 r.lim.2) ∧ r.crange = (-1, 2) := by
  refine ⟨_, rfl, C131_axes_fails (fun _ => .ok [(0, 1, 2), (0, 1, 3), (0, 2, 3), (1, 2, 3)]) [1, -1, 1 / 2] [π / 2, 0, π] [π / 2, 0, 3] _ 2 (by norm_num) rfl, ?_⟩
  norm_num [List.foldl]

/-! ### C132 -/

theorem mkHull_parts (qhull : (L : ℕ) → (Fin L → Vec3) → Py (List (Face L))) {L : ℕ} (pts : Fin L → Vec3) (lis : Vec3) (h : Hull L)
    (hh : mkHull qhull pts lis = .ok h) : h.points = (fun l => pts l - lis) ∧ h.listener = 0 ∧ h.centroids = calculateCentroids h.points h.simplices ∧
      h.faceAreas = calculateFaceAreas h.points h.simplices ∧ h.faceNormals = calculateFaceNormals h.points h.simplices ∧
      h.barycenter = calculateBarycenter h.points := by
  unfold mkHull at hh
  change (qhull L fun l => pts l - lis).bind _ = _ at hh
  rcases hq : qhull L fun l => pts l - lis with e | f
  · rw [hq] at hh; cases hh
  · rw [hq] at hh
    rw [← Except.ok.inj hh]
    exact ⟨rfl, rfl, rfl, rfl, rfl, rfl⟩

/-- **C132** Every loudspeaker is labelled with its number at its position relative to the listener, who is drawn at the origin; the barycenter is drawn at the
mean of the loudspeakers. -/
theorem C132_labels (qhull : (L : ℕ) → (Fin L → Vec3) → Py (List (Face L))) {L : ℕ} (pts : Fin L → Vec3) (lis : Vec3) (h : Hull L)
    (hh : mkHull qhull pts lis = .ok h) (vertices : List (Fin L)) (auto : Fin 3 → ℝ × ℝ) (face vertex : Bool) :
    let p := hullNormals h vertices auto face vertex
    p.labels.length = L ∧ (∀ l : Fin L, p.labels[l.val]? = some (pts l - lis, l.val)) ∧ p.listener = 0 ∧
      (∀ c, L * p.barycenter c = ∑ l, (pts l - lis) c) ∧ p.faces = h.simplices := by
  obtain ⟨h1, h2, h3, h4, h5, h6⟩ := mkHull_parts qhull pts lis h hh
  refine ⟨by simp [hullNormals], fun l => ?_, h2, fun c => ?_, rfl⟩
  · simp [hullNormals, h1]
  · simp only [hullNormals, h6, h1, calculateBarycenter]
    rcases Nat.eq_zero_or_pos L with rfl | hL
    · simp
    · field_simp

/-- **C132** Every face has an arrow from its centroid, perpendicular to the face, of twice its area as length and not towards the barycenter (up to the
tolerance of the normals); every loudspeaker has an arrow, pointing away from the barycenter if no face is in a plane with it. -/
theorem C132_arrows (qhull : (L : ℕ) → (Fin L → Vec3) → Py (List (Face L))) {L : ℕ} (pts : Fin L → Vec3) (lis : Vec3) (h : Hull L)
    (hh : mkHull qhull pts lis = .ok h) (vertices : List (Fin L)) (auto : Fin 3 → ℝ × ℝ) :
    let p := hullNormals h vertices auto
    p.faceArrows.length = p.faces.length ∧ p.vertexArrows.length = L ∧
    (∀ (n : ℕ) (f : Face L), p.faces[n]? = some f → ∃ c v, p.faceArrows[n]? = some (c, v) ∧ (∀ k, 3 * c k = h.points (f 0) k + h.points (f 1) k + h.points (f 2) k) ∧
      (∀ i j, v ⬝ᵥ (pts (f i) - pts (f j)) = 0) ∧ norm3 v = 2 * areaTriangle (h.points (f 0)) (h.points (f 1)) (h.points (f 2)) ∧ v ⬝ᵥ (p.barycenter - c) ≤ 10e-6) ∧
    ∀ l : Fin L, ∃ v, p.vertexArrows[l.val]? = some (pts l - lis, v) ∧ (l ∉ vertices → v = 0) ∧
      (l ∈ vertices → (∃ f ∈ h.simplices, ∃ i, f i = l) →
        (∀ f ∈ h.simplices, (10e-6 : ℝ) < |crossProduct (h.points (f 1) - h.points (f 0)) (h.points (f 2) - h.points (f 0)) ⬝ᵥ (p.barycenter - h.points (f 0))|) →
        0 < v ⬝ᵥ ((pts l - lis) - p.barycenter)) := by
  obtain ⟨h1, h2, h3, h4, h5, h6⟩ := mkHull_parts qhull pts lis h hh
  refine ⟨by simp [hullNormals, h3, h5, calculateCentroids, calculateFaceNormals], by simp [hullNormals], fun n f hf => ?_, fun l => ?_⟩
  · obtain ⟨v, area, hv, ha, hp, hnorm, hin⟩ := C38_normal h.points h.simplices 10e-6 (by norm_num) n f hf
    refine ⟨centroid h.points f, v, ?_, fun k => ?_, fun i j => ?_, ?_, ?_⟩
    · simp only [hullNormals, if_true, h3, h5]
      rw [List.getElem?_zip_eq_some]
      refine ⟨?_, hv⟩
      unfold calculateCentroids
      rw [List.getElem?_map, show h.simplices[n]? = some f from hf]; rfl
    · simp only [centroid, Fin.sum_univ_three]; ring
    · rw [← hp i j, h1]
      congr 1
      simp
    · rw [hnorm]
      unfold calculateFaceAreas at ha
      rw [List.getElem?_map, show h.simplices[n]? = some f from hf] at ha
      rw [← Option.some.inj ha]
    · simpa only [hullNormals, h6] using hin
  · refine ⟨calculateVertexNormals h.simplices h.faceAreas h.faceNormals vertices false l, by simp [hullNormals, h1], fun hl => C99_inner _ _ _ _ _ hl _, fun hl hf hd => ?_⟩
    have hb : (hullNormals h vertices auto).barycenter = calculateBarycenter h.points := h6
    rw [hb] at hd ⊢
    have := (C99_outward h.points h.simplices 10e-6 (by norm_num) vertices l hl hf hd).1
    rw [h4, h5]
    rw [show pts l - lis = h.points l by rw [h1]]
    exact this

/-- **C132** Either kind of arrow can be left out, without effect on the rest of the figure. -/
theorem C132_options {L : ℕ} (h : Hull L) (vertices : List (Fin L)) (auto : Fin 3 → ℝ × ℝ) (b : Bool) :
    (hullNormals h vertices auto false b).faceArrows = [] ∧ (hullNormals h vertices auto b false).vertexArrows = [] ∧
    (hullNormals h vertices auto true b).faceArrows = (hullNormals h vertices auto).faceArrows ∧
    (hullNormals h vertices auto b true).vertexArrows = (hullNormals h vertices auto).vertexArrows := ⟨rfl, rfl, rfl, rfl⟩

/-- **C132** A loudspeaker is inside of the axes exactly if none of its coordinates, relative to the listener, exceeds one metre. -/
theorem C132_axes_partial (qhull : (L : ℕ) → (Fin L → Vec3) → Py (List (Face L))) {L : ℕ} (pts : Fin L → Vec3) (lis : Vec3) (h : Hull L)
    (hh : mkHull qhull pts lis = .ok h) (vertices : List (Fin L)) (auto : Fin 3 → ℝ × ℝ) (face vertex : Bool) (l : Fin L) :
    let p := hullNormals h vertices auto face vertex
    (∀ c, (h.points l) c ∈ Set.Icc p.lim.1 p.lim.2) ↔ ∀ c, |(pts l - lis) c| ≤ 1 := by
  obtain ⟨h1, -⟩ := mkHull_parts qhull pts lis h hh
  simp only [hullNormals, aspectEqual, h1, Set.mem_Icc, abs_le]

/-- `C132_labels` and `C132_axes_partial` on the octahedron: every loudspeaker is labelled and inside of the axes. -/
example (auto : Fin 3 → ℝ × ℝ) : ∃ h, mkHull (fun L _ => if hL : L = 6 then .ok (hL ▸ Oct.faces) else .error .valueError) Oct.pts 0 = .ok h ∧
    (hullNormals h [] auto false true).labels.length = 6 ∧
    ∀ c, h.points 0 c ∈ Set.Icc (hullNormals h [] auto false true).lim.1 (hullNormals h [] auto false true).lim.2 := by
  refine ⟨_, rfl, (C132_labels (fun L _ => if hL : L = 6 then .ok (hL ▸ Oct.faces) else .error .valueError) Oct.pts 0 _ rfl [] auto false true).1, ?_⟩
  refine (C132_axes_partial (fun L _ => if hL : L = 6 then .ok (hL ▸ Oct.faces) else .error .valueError) Oct.pts 0 _ rfl [] auto false true 0).2 fun c => ?_
  fin_cases c <;> simp [Oct.pts]

/-- **C132** So the loudspeakers of a setup two metres away from the listener are not in the figure. -/
theorem C132_axes_fails (vertices : List (Fin 6)) (auto : Fin 3 → ℝ × ℝ) :
    ∃ h, mkHull (fun L _ => if hL : L = 6 then .ok (hL ▸ Oct.faces) else .error .valueError) (fun l => (2 : ℝ) • Oct.pts l) 0 = .ok h ∧
      ∀ l, ∃ c, h.points l c ∉ Set.Icc (hullNormals h vertices auto).lim.1 (hullNormals h vertices auto).lim.2 := by
  refine ⟨_, rfl, fun l => ?_⟩
  by_contra hc
  push Not at hc
  have := (C132_axes_partial (fun L _ => if hL : L = 6 then .ok (hL ▸ Oct.faces) else .error .valueError) (fun l => (2 : ℝ) • Oct.pts l) 0 _ rfl vertices auto true true l).1 hc
  have h0 := this 0
  have h1 := this 1
  have h2 := this 2
  clear hc this
  fin_cases l <;> first
    | (norm_num [Oct.pts] at h0; done)
    | (norm_num [Oct.pts] at h1; done)
    | (norm_num [Oct.pts] at h2; change |(2 : ℝ)| ≤ 1 at h2; norm_num at h2; done)
    | (norm_num [Oct.pts] at h2; change |(-2 : ℝ)| ≤ 1 at h2; norm_num at h2; done)

/-- The octahedron: it is a setup, whose first loudspeaker has a vertex normal that points outwards. -/
example (auto : Fin 3 → ℝ × ℝ) : ∃ h, mkHull (fun L _ => if hL : L = 6 then .ok (hL ▸ Oct.faces) else .error .valueError) Oct.pts 0 = .ok h ∧
    ∀ l : Fin 6, ∃ v, (hullNormals h (List.finRange 6) auto).vertexArrows[l.val]? = some (Oct.pts l - 0, v) := by
  refine ⟨_, rfl, fun l => ?_⟩
  obtain ⟨v, hv, -⟩ := (C132_arrows (fun L _ => if hL : L = 6 then .ok (hL ▸ Oct.faces) else .error .valueError) Oct.pts 0 _ rfl (List.finRange 6) auto).2.2.2 l
  exact ⟨v, hv⟩

/-! ### C133 -/

/-- **C133** `compare_ambi` draws nothing for any two signals: it asks for an attribute that they do not have, if it does not fail before, for lack of channels
or a sampling rate. -/
theorem C133_fails (A B : Sig.Multi) : (∀ u, compareAmbi A B ≠ .ok u) ∧ (B.channels ≠ [] → B.fs ≠ 0 → compareAmbi A B = .error .attributeError) ∧
    (B.channels = [] → compareAmbi A B = .error .indexError) ∧ (B.channels ≠ [] → B.fs = 0 → compareAmbi A B = .error .zeroDivisionError) := by
  have key : compareAmbi A B = if B.channels = [] then .error .indexError else if B.fs = 0 then .error .zeroDivisionError else .error .attributeError := by
    unfold compareAmbi Sig.Multi.len
    rcases hc : B.channels with _ | ⟨c, cs⟩
    · rfl
    · rw [if_neg (List.cons_ne_nil _ _)]; rfl
  rw [key]
  refine ⟨fun u => ?_, fun h1 h2 => by rw [if_neg h1, if_neg h2], fun h => by rw [if_pos h], fun h1 h2 => by rw [if_neg h1, if_pos h2]⟩
  split_ifs <;> exact fun h => by cases h

/-- Two four-channel signals at 48 kHz. -/
example (m : Sig.Mono) : compareAmbi ⟨[m, m, m, m], 48000, 4⟩ ⟨[m, m, m, m], 48000, 4⟩ = .error .attributeError :=
  (C133_fails _ _).2.1 (List.cons_ne_nil _ _) (by norm_num)

end Verif.Props
