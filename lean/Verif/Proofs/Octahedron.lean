import Verif.Proofs.Vbap
import Verif.Props.Coordinates

/-!
A concrete layout: six loudspeakers at the vertices of the regular octahedron, with its eight faces as Qhull might return them.
Used as witness in examples and negations.
-/

namespace Verif.Oct
open Real Verif.Sph Verif.Utils Verif.Decoder

/-- `±x, ±y, ±z`. -/
def pts : Fin 6 → Vec3 := ![![1, 0, 0], ![-1, 0, 0], ![0, 1, 0], ![0, -1, 0], ![0, 0, 1], ![0, 0, -1]]

/-- The faces after `sort_vertices`. -/
def faces : List (Face 6) := [![0, 2, 4], ![0, 2, 5], ![0, 3, 4], ![0, 3, 5], ![1, 2, 4], ![1, 2, 5], ![1, 3, 4], ![1, 3, 5]]

/-- The faces as returned by Qhull. -/
def rawFaces : List (Face 6) := [![0, 4, 2], ![0, 5, 2], ![0, 4, 3], ![0, 5, 3], ![1, 4, 2], ![1, 5, 2], ![1, 4, 3], ![1, 5, 3]]

/-- A hull routine that knows the octahedron. -/
def qhull : (L : ℕ) → (Fin L → Vec3) → Py (List (Face L)) := fun L _ =>
  if h : 6 = L then .ok (rawFaces.map fun f i => Fin.cast h (f i)) else .error .runtimeError

/-- The setup. -/
noncomputable def hull : Hull 6 :=
  { points := pts, listener := 0, d := fun _ => 1, a := 1, simplices := faces, centroids := calculateCentroids pts faces,
    faceAreas := calculateFaceAreas pts faces, faceNormals := calculateFaceNormals pts faces, barycenter := 0, encloses := faces,
    valid := faces, invBase := none, charOrder := none }

theorem sort_raw : sortVertices (rawFaces.map fun f i => Fin.cast rfl (f i)) = faces := by decide

theorem barycenter_pts : calculateBarycenter pts = 0 := by
  funext c
  unfold calculateBarycenter
  rw [Fin.sum_univ_six]
  fin_cases c <;> simp [pts]

theorem cart2sph_radius (x y z : ℝ) (a b : Bool) : (cart2sph x y z a b).2.2 = √(x ^ 2 + y ^ 2 + z ^ 2) := rfl

theorem radius_pts (l : Fin 6) : (cart2sph (pts l 0) (pts l 1) (pts l 2) false false).2.2 = 1 := by
  rw [cart2sph_radius]
  fin_cases l <;> simp [pts]

theorem sub_zero_pts : (fun l => pts l - (0 : Vec3)) = pts := by funext l; simp

theorem mkHull_eq : mkHull qhull pts 0 = .ok hull := by
  unfold mkHull qhull
  rw [dif_pos rfl]
  show Except.ok _ = Except.ok _
  simp only [sort_raw, barycenter_pts, sub_zero, radius_pts]
  have : checkListenerInside faces (calculateCentroids pts faces) 0 0 = faces := by
    unfold checkListenerInside calculateCentroids
    have hz : faces.zip (faces.map (centroid pts)) = faces.map fun f => (f, centroid pts f) := by
      rw [List.zip_map_right, ← List.map_id faces, List.zip_map']
      simp
    rw [hz, List.filter_eq_self.2]
    · rw [List.map_map]; exact List.map_id faces
    · intro t ht
      obtain ⟨f, _, rfl⟩ := List.mem_map.1 ht
      simp only [decide_eq_true_eq, not_lt, zero_sub]
      exact Finset.sum_nonneg fun c _ => mul_self_nonneg _
  rw [this]; rfl

theorem inj : ∀ f ∈ faces, Function.Injective f := by
  intro f hf
  simp only [faces, List.mem_cons, List.not_mem_nil, or_false] at hf
  rcases hf with rfl | rfl | rfl | rfl | rfl | rfl | rfl | rfl <;> decide

/-- The sign of vertex `l` along its axis. -/
theorem li : ∀ f ∈ faces, LinearIndependent ℝ fun i => pts (f i) := by
  intro f hf
  rw [li_iff_unit, Matrix.isUnit_iff_isUnit_det, Matrix.det_fin_three, isUnit_iff_ne_zero]
  simp only [faces, List.mem_cons, List.not_mem_nil, or_false] at hf
  rcases hf with rfl | rfl | rfl | rfl | rfl | rfl | rfl | rfl <;> simp [baseMat, pts]

theorem norm_pts (l : Fin 6) : norm3 (pts l) = 1 := by
  unfold norm3
  fin_cases l <;> simp [pts, dotProduct, Fin.sum_univ_three]

theorem projectOnSphere_eq (v : Vec3) (hv : v ≠ 0) : projectOnSphere v = (1 / norm3 v) • v := by
  have hn : norm3 v = √(v 0 ^ 2 + v 1 ^ 2 + v 2 ^ 2) := by
    unfold norm3; rw [dotProduct, Fin.sum_univ_three]; congr 1; ring
  have h0 : (v 0, v 1, v 2) ≠ (0, 0, 0) := by
    intro h
    simp only [Prod.mk.injEq] at h
    exact hv (by funext c; match c with | 0 => exact h.1 | 1 => exact h.2.1 | 2 => exact h.2.2)
  have h := C01_sph2cart_cart2sph (v 0) (v 1) (v 2) false false h0 (by simp)
  rw [cart2sph_radius, ← hn] at h
  have hpos : norm3 v ≠ 0 := by
    rw [hn]
    intro h'
    rw [Real.sqrt_eq_zero (by positivity)] at h'
    apply h0
    have h1 : v 0 = 0 := by nlinarith [sq_nonneg (v 0), sq_nonneg (v 1), sq_nonneg (v 2)]
    have h2 : v 1 = 0 := by nlinarith [sq_nonneg (v 0), sq_nonneg (v 1), sq_nonneg (v 2)]
    have h3 : v 2 = 0 := by nlinarith [sq_nonneg (v 0), sq_nonneg (v 1), sq_nonneg (v 2)]
    rw [h1, h2, h3]
  unfold sph2cart at h
  simp only [Prod.mk.injEq] at h
  obtain ⟨h1, h2, h3⟩ := h
  unfold projectOnSphere sph2cart
  generalize cart2sph (v 0) (v 1) (v 2) false false = a at *
  funext c
  match c with
  | 0 => simp only [Matrix.cons_val_zero, Pi.smul_apply, smul_eq_mul]; rw [← h1]; field_simp
  | 1 => simp only [Matrix.cons_val_one, Matrix.cons_val_zero, Pi.smul_apply, smul_eq_mul]; rw [← h2]; field_simp
  | 2 => simp only [Matrix.cons_val, Pi.smul_apply, smul_eq_mul]; rw [← h3]; field_simp

theorem pts_ne (l : Fin 6) : pts l ≠ 0 := by
  intro h
  have := norm_pts l
  rw [h] at this
  simp [norm3] at this

theorem project_pts : (fun l => projectOnSphere (pts l)) = pts := by
  funext l
  rw [projectOnSphere_eq _ (pts_ne l), norm_pts]; simp

/-- Gains on one face of the octahedron which render a diagonal direction have an energy vector of length `1/√3`. -/
theorem mag_diag (g : Fin 6 → ℝ) (f : Face 6) (hf : f ∈ faces) (hg : ∀ l, g l ≠ 0 → ∃ i, f i = l) (c : ℝ) (hc : 0 < c) (s : Vec3)
    (hs : ∀ x, s x ^ 2 = 1) (h : ∑ l, g l • pts l = c • s) : (rE pts g).2 = √(1 / 3) := by
  have h0 := congrFun h 0
  have h1 := congrFun h 1
  have h2 := congrFun h 2
  simp only [Fin.sum_univ_six, Pi.add_apply, Pi.smul_apply, smul_eq_mul] at h0 h1 h2
  have off : ∀ l, (∀ i, f i ≠ l) → g l = 0 := by
    intro l hl
    by_contra hne
    obtain ⟨i, hi⟩ := hg l hne
    exact hl i hi
  have key : ∀ a : ℝ, ∀ x, (a = c * s x ∨ -a = c * s x) → a ^ 2 = c ^ 2 := by
    rintro a x (ha | ha)
    · rw [ha, mul_pow, hs]; ring
    · have : a ^ 2 = (-a) ^ 2 := by ring
      rw [this, ha, mul_pow, hs]; ring
  have hc2 : c ^ 2 ≠ 0 := by positivity
  have fin : ∀ E : ℝ, ∀ v : Vec3, E = 3 * c ^ 2 → (∀ x, v x ^ 2 = c ^ 4) → √(∑ x, (1 / E * v x) ^ 2) = √(1 / 3) := by
    intro E v hE hv
    congr 1
    have : ∀ x, (1 / E * v x) ^ 2 = 1 / 9 := by
      intro x; rw [mul_pow, hv, hE]; field_simp; norm_num
    simp only [this, Fin.sum_univ_three]; norm_num
  unfold rE
  have hE : ∑ q, g q ^ 2 = 3 * c ^ 2 ∧ ∀ x, (∑ q, g q ^ 2 * pts q x) ^ 2 = c ^ 4 := by
    simp only [Fin.sum_univ_six]
    simp only [faces, List.mem_cons, List.not_mem_nil, or_false] at hf
    rcases hf with rfl | rfl | rfl | rfl | rfl | rfl | rfl | rfl
    all_goals
      first
        | rw [off 0 (by decide)] at h0 h1 h2 ⊢
        | rw [off 1 (by decide)] at h0 h1 h2 ⊢
      first
        | rw [off 2 (by decide)] at h0 h1 h2 ⊢
        | rw [off 3 (by decide)] at h0 h1 h2 ⊢
      first
        | rw [off 4 (by decide)] at h0 h1 h2 ⊢
        | rw [off 5 (by decide)] at h0 h1 h2 ⊢
      simp only [pts, Matrix.cons_val, Matrix.cons_val_zero, Matrix.cons_val_one, mul_zero, mul_one, zero_mul, add_zero, zero_add,
        mul_neg, neg_zero] at h0 h1 h2
      have e0 := key _ 0 (by first | exact .inl h0 | exact .inr h0)
      have e1 := key _ 1 (by first | exact .inl h1 | exact .inr h1)
      have e2 := key _ 2 (by first | exact .inl h2 | exact .inr h2)
      try simp only [neg_sq] at e0 e1 e2
      rw [e0, e1, e2]
      refine ⟨by ring, fun x => ?_⟩
      match x with
      | 0 => simp [pts]; ring
      | 1 => simp [pts]; ring
      | 2 => simp [pts]; ring
  simp only [hE.1]
  rw [if_neg (by positivity)]
  exact fin _ _ rfl hE.2

theorem arccos_bounds : π / 4 ≤ arccos (√(1 / 3)) ∧ arccos (√(1 / 3)) < 0.9588 := by
  have hs0 : (0 : ℝ) ≤ √(1 / 3) := Real.sqrt_nonneg _
  have hsq : √(1 / 3) ^ 2 = (1 / 3 : ℝ) := Real.sq_sqrt (by norm_num)
  have hs1 : √(1 / 3) ≤ (1 : ℝ) := by nlinarith
  constructor
  · by_contra hlt
    have hlt := not_le.1 hlt
    have h1 := cos_lt_cos_of_nonneg_of_le_pi_div_two (arccos_nonneg _) (by linarith [pi_pos]) hlt
    rw [cos_arccos (by linarith) hs1, cos_pi_div_four] at h1
    have h2 : (√2) ^ 2 = 2 := Real.sq_sqrt (by norm_num)
    have h3 : 0 ≤ √2 := Real.sqrt_nonneg _
    nlinarith
  · by_contra hge
    have hge := not_lt.1 hge
    have h1 := cos_le_cos_of_nonneg_of_le_pi (by norm_num) (arccos_le_pi _) hge
    rw [cos_arccos (by linarith) hs1] at h1
    have hb := Real.cos_bound (x := 0.4794) (by rw [abs_of_pos] <;> norm_num)
    rw [abs_le] at hb
    have hc0 : 0 ≤ cos 0.4794 := cos_nonneg_of_mem_Icc ⟨by linarith [pi_gt_three], by linarith [pi_gt_three]⟩
    have hd : cos (0.9588 : ℝ) = 2 * cos 0.4794 ^ 2 - 1 := by rw [← cos_two_mul]; norm_num
    rw [abs_of_pos (by norm_num)] at hb
    have hb2 : cos (0.4794 : ℝ) ≤ 0.8879 := by
      have := hb.2; norm_num at this ⊢; linarith
    have : cos (0.9588 : ℝ) ≤ 0.5768 := by rw [hd]; nlinarith
    nlinarith

theorem order_diag (n : ℕ) (hn : n ≠ 0) : orderFromMags (List.replicate n √(1 / 3)) = .ok 2 := by
  unfold orderFromMags
  have hn' : (n : ℝ) ≠ 0 := by exact_mod_cast hn
  have hav : ((List.replicate n √(1 / 3)).map fun m => 2 * arccos m * (180 / π)).sum / ((List.replicate n √(1 / 3)).length : ℝ)
      = 2 * arccos (√(1 / 3)) * (180 / π) := by
    rw [List.map_replicate, List.sum_replicate, List.length_replicate, nsmul_eq_mul]; field_simp
  simp only [hav]
  obtain ⟨h1, h2⟩ := arccos_bounds
  have hpi := pi_pos
  have hθ : 0 < arccos (√(1 / 3)) := by linarith
  have hpos : 0 < 2 * arccos (√(1 / 3)) * (180 / π) := by positivity
  rw [if_neg hpos.ne']
  congr 1
  rw [Int.ceil_eq_iff]
  have hb1 : 2 * arccos (√(1 / 3)) * (180 / π) < 109.88 := by
    have : 2 * arccos (√(1 / 3)) * (180 / π) = 360 * arccos (√(1 / 3)) / π := by ring
    rw [this, div_lt_iff₀ hpi]
    nlinarith [pi_gt_d2, pi_gt_d4]
  have hb2 : 90 ≤ 2 * arccos (√(1 / 3)) * (180 / π) := by
    have : 2 * arccos (√(1 / 3)) * (180 / π) = 360 * arccos (√(1 / 3)) / π := by ring
    rw [this, le_div_iff₀ hpi]
    nlinarith
  constructor
  · have : (2.51 : ℝ) < 2 * 137.9 / (2 * arccos (√(1 / 3)) * (180 / π)) := by
      rw [lt_div_iff₀ hpos]; nlinarith
    push_cast; linarith
  · have : 2 * 137.9 / (2 * arccos (√(1 / 3)) * (180 / π)) ≤ (3.51 : ℝ) := by
      rw [div_le_iff₀ hpos]; nlinarith
    push_cast; linarith

theorem order_zero (n : ℕ) (hn : n ≠ 0) : orderFromMags (List.replicate n 0) = .ok 1 := by
  unfold orderFromMags
  have hn' : (n : ℝ) ≠ 0 := by exact_mod_cast hn
  have hav : ((List.replicate n (0 : ℝ)).map fun m => 2 * arccos m * (180 / π)).sum / ((List.replicate n (0 : ℝ)).length : ℝ) = 180 := by
    rw [List.map_replicate, List.sum_replicate, List.length_replicate, nsmul_eq_mul, arccos_zero]; field_simp
  simp only [hav]
  rw [if_neg (by norm_num)]
  congr 1
  rw [Int.ceil_eq_iff]
  norm_num

end Verif.Oct
