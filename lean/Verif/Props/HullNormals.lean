import Verif.Props.Surround
import Verif.Props.Renumbered

/-!
C155: the face normals are the outer normals of the hull; `pop_triangles(normal_limit=90)` tells whether the listener is inside.
-/

namespace Verif.Props
open Real Verif.Sph Verif.Utils Verif.Decoder

/-! ### Outer normals -/

/-- A vector perpendicular to two others is parallel to their cross product. -/
theorem parallel_cross (n a b : Vec3) (ha : n ⬝ᵥ a = 0) (hb : n ⬝ᵥ b = 0) :
    (crossProduct a b ⬝ᵥ crossProduct a b) • n = (crossProduct a b ⬝ᵥ n) • crossProduct a b := by
  rw [dotProduct, Fin.sum_univ_three] at ha hb
  rw [dotProduct, dotProduct, Fin.sum_univ_three, Fin.sum_univ_three, cross_apply]
  ext i
  simp only [Pi.smul_apply, smul_eq_mul, Matrix.cons_val_zero, Matrix.cons_val_one, Matrix.cons_val]
  fin_cases i <;> simp only [Fin.zero_eta, Fin.mk_one, Fin.reduceFinMk, Matrix.cons_val_zero, Matrix.cons_val_one, Matrix.cons_val]
  · linear_combination ((a 0 * b 2 - a 2 * b 0) * b 2 + (a 0 * b 1 - a 1 * b 0) * b 1) * ha - ((a 0 * b 2 - a 2 * b 0) * a 2 + (a 0 * b 1 - a 1 * b 0) * a 1) * hb
  · linear_combination ((a 1 * b 2 - a 2 * b 1) * b 2 - (a 0 * b 1 - a 1 * b 0) * b 0) * ha - ((a 1 * b 2 - a 2 * b 1) * a 2 - (a 0 * b 1 - a 1 * b 0) * a 0) * hb
  · linear_combination (-(a 1 * b 2 - a 2 * b 1) * b 1 - (a 0 * b 2 - a 2 * b 0) * b 0) * ha - (-(a 1 * b 2 - a 2 * b 1) * a 1 - (a 0 * b 2 - a 2 * b 0) * a 0) * hb

/-- The normal of a face that is not edge-on to the barycenter is a positive multiple of every normal of a supporting plane through the face. -/
theorem normal_support {L : ℕ} (hL : 0 < L) (points : Fin L → Vec3) (f : Face L) (eps : ℝ) (heps : 0 ≤ eps) (n : Vec3) (β : ℝ) (hn : n ≠ 0)
    (hf : ∀ i, n ⬝ᵥ points (f i) = β) (hp : ∀ l, n ⬝ᵥ points l ≤ β)
    (hs : eps < |crossProduct (points (f 1) - points (f 0)) (points (f 2) - points (f 0)) ⬝ᵥ (calculateBarycenter points - centroid points f)|) :
    ∃ κ : ℝ, 0 < κ ∧ faceNormal points (calculateBarycenter points) eps false f = κ • n := by
  obtain ⟨w, hw⟩ : ∃ w, w = crossProduct (points (f 1) - points (f 0)) (points (f 2) - points (f 0)) := ⟨_, rfl⟩
  obtain ⟨d, hd⟩ : ∃ d, d = calculateBarycenter points - centroid points f := ⟨_, rfl⟩
  rw [← hw, ← hd] at hs
  have hpar := parallel_cross n (points (f 1) - points (f 0)) (points (f 2) - points (f 0)) (by rw [dotProduct_sub, hf, hf, sub_self])
    (by rw [dotProduct_sub, hf, hf, sub_self])
  rw [← hw] at hpar
  have hw0 : w ≠ 0 := by
    rintro h0
    rw [h0, zero_dotProduct, abs_zero] at hs
    linarith
  have hww : 0 < w ⬝ᵥ w := lt_of_le_of_ne (Finset.sum_nonneg fun i _ => mul_self_nonneg _) fun h => hw0 (dotProduct_self_eq_zero.1 h.symm)
  have hκ : w ⬝ᵥ n ≠ 0 := by
    intro h0
    rw [h0, zero_smul] at hpar
    rcases smul_eq_zero.1 hpar with h | h
    · exact hww.ne' h
    · exact hn h
  obtain ⟨κ, hκe⟩ : ∃ κ, κ = w ⬝ᵥ w / w ⬝ᵥ n := ⟨_, rfl⟩
  have hwn : w = κ • n := by
    rw [hκe, div_eq_inv_mul, mul_smul, hpar, smul_smul, inv_mul_cancel₀ hκ, one_smul]
  -- the barycenter is not beyond the plane
  have hnd : n ⬝ᵥ d ≤ 0 := by
    have hb : n ⬝ᵥ calculateBarycenter points ≤ β := by
      have hLr : (0 : ℝ) < L := by exact_mod_cast hL
      have : n ⬝ᵥ calculateBarycenter points = (∑ l, n ⬝ᵥ points l) / L := by
        simp only [calculateBarycenter, dotProduct]
        rw [Finset.sum_comm, Finset.sum_div]
        exact Finset.sum_congr rfl fun c _ => by rw [← Finset.mul_sum, mul_div_assoc]
      rw [this, div_le_iff₀ hLr]
      calc ∑ l, n ⬝ᵥ points l ≤ ∑ _l : Fin L, β := Finset.sum_le_sum fun l _ => hp l
        _ = β * L := by rw [Finset.sum_const, Finset.card_univ, Fintype.card_fin, nsmul_eq_mul, mul_comm]
    have hc : n ⬝ᵥ centroid points f = β := by
      have : n ⬝ᵥ centroid points f = (∑ i, n ⬝ᵥ points (f i)) / 3 := by
        simp only [centroid, dotProduct]
        rw [Finset.sum_comm, Finset.sum_div]
        exact Finset.sum_congr rfl fun c _ => by rw [← Finset.mul_sum, mul_div_assoc]
      rw [this, Fin.sum_univ_three, hf, hf, hf]
      ring
    rw [hd, dotProduct_sub, hc]
    linarith
  unfold faceNormal
  simp only [Bool.false_eq_true, if_false, add_sub_cancel_left]
  rw [← hw, ← hd]
  have hwd : w ⬝ᵥ d = κ * n ⬝ᵥ d := by rw [hwn, smul_dotProduct, smul_eq_mul]
  split_ifs with h
  · refine ⟨-κ, ?_, by rw [hwn, neg_smul]⟩
    by_contra hneg
    have : 0 ≤ κ := by linarith
    have : w ⬝ᵥ d ≤ 0 := by rw [hwd]; exact mul_nonpos_of_nonneg_of_nonpos this hnd
    linarith
  · refine ⟨κ, ?_, hwn⟩
    by_contra hneg
    push Not at hneg
    have : 0 ≤ w ⬝ᵥ d := by rw [hwd]; exact mul_nonneg_of_nonpos_of_nonpos hneg hnd
    rw [abs_of_nonneg this] at hs
    exact h hs

/-- **C155** The normals of the faces of a hull are its outer normals: no loudspeaker is beyond the plane of a face. -/
theorem C155_outer {L : ℕ} (points : Fin L → Vec3) (faces : List (Face L)) (hh : IsConvexHull points faces) (eps : ℝ) (heps : 0 ≤ eps) (k : ℕ) (f : Face L)
    (hf : faces[k]? = some f)
    (hs : eps < |crossProduct (points (f 1) - points (f 0)) (points (f 2) - points (f 0)) ⬝ᵥ (calculateBarycenter points - centroid points f)|) :
    ∃ v, (calculateFaceNormals points faces eps false)[k]? = some v ∧ v ≠ 0 ∧ ∀ l i, v ⬝ᵥ (points l - points (f i)) ≤ 0 := by
  obtain ⟨n, β, hn, h1, h2⟩ := hh.support f (List.mem_of_getElem? hf)
  obtain ⟨κ, hκ, he⟩ := normal_support (Fin.pos (f 0)) points f eps heps n β hn h1 h2 hs
  refine ⟨_, by unfold calculateFaceNormals; rw [List.getElem?_map, hf]; rfl, ?_, fun l i => ?_⟩
  · rw [he]
    exact smul_ne_zero hκ.ne' hn
  · rw [he, smul_dotProduct, smul_eq_mul, dotProduct_sub, h1]
    exact mul_nonpos_of_nonneg_of_nonpos hκ.le (by linarith [h2 l])

/-! ### The listener -/

theorem deg2rad_ninety : deg2rad 90 = π / 2 := by
  unfold deg2rad pyMod
  have : ⌊(90 : ℝ) / 360⌋ = 0 := by
    rw [Int.floor_eq_iff]; norm_num
  rw [this]
  norm_num
  ring

theorem angle_le_ninety (u v : Vec3) : angleBetween u v ≤ π / 2 ↔ 0 ≤ u ⬝ᵥ v := by
  unfold angleBetween
  simp only
  rw [Real.arccos_le_pi_div_two]
  have hn : 0 ≤ norm3 u * norm3 v := mul_nonneg (Real.sqrt_nonneg _) (Real.sqrt_nonneg _)
  have hclip : ∀ x : ℝ, 0 ≤ clip1 x ↔ 0 ≤ x := by
    intro x
    unfold clip1
    rw [le_min_iff, le_max_iff]
    constructor
    · rintro ⟨h | h, -⟩
      · exact h
      · norm_num at h
    · intro h
      exact ⟨.inl h, by norm_num⟩
  rw [hclip]
  rcases hn.eq_or_lt with h | h
  · have huv : u ⬝ᵥ v = 0 := by
      have hz : ∀ x : Vec3, norm3 x = 0 → x = 0 := by
        intro x hx
        unfold norm3 at hx
        rw [Real.sqrt_eq_zero (show 0 ≤ x ⬝ᵥ x from Finset.sum_nonneg fun i _ => mul_self_nonneg _)] at hx
        exact dotProduct_self_eq_zero.1 hx
      rcases mul_eq_zero.1 h.symm with h' | h'
      · rw [hz u h', zero_dotProduct]
      · rw [hz v h', dotProduct_zero]
    rw [huv, zero_div]
  · rw [le_div_iff₀ h, zero_mul]

/-- **C155** `pop_triangles(normal_limit=90)` keeps a valid face exactly if the listener is not beyond its plane. -/
theorem C155_normal_limit {L : ℕ} {h : Hull L} (hw : WellFormed h) (hh : IsConvexHull h.points h.simplices) (f : Face L) (hf : f ∈ h.valid) (hs : Sided h.points f) :
    ∃ (n : Vec3) (β : ℝ), n ≠ 0 ∧ (∀ i, n ⬝ᵥ (h.points (f i) - h.listener) = β) ∧ (∀ l, n ⬝ᵥ (h.points l - h.listener) ≤ β) ∧
      (f ∈ (popTriangles h (some 90) none none none).valid ↔ 0 ≤ β) := by
  classical
  obtain ⟨n, β, hn, h1, h2⟩ := hh.support f (hw.valid.subset hf)
  obtain ⟨κ, hκ, he⟩ := normal_support (Fin.pos (f 0)) h.points f 10e-6 (by norm_num) n β hn h1 h2 hs
  refine ⟨n, β, hn, by rw [hw.listener]; simpa using h1, by rw [hw.listener]; simpa using h2, ?_⟩
  rw [C35_survive hw]
  simp only [List.mem_filter, decide_eq_true_eq, hf, true_and]
  have hang : angleBetween (centroid h.points f) (faceNormal h.points (calculateBarycenter h.points) 10e-6 false f) ≤ deg2rad 90 ↔ 0 ≤ β := by
    rw [deg2rad_ninety, angle_le_ninety, he, dotProduct_smul, smul_eq_mul, dotProduct_comm]
    have hc : n ⬝ᵥ centroid h.points f = β := by
      have : n ⬝ᵥ centroid h.points f = (∑ i, n ⬝ᵥ h.points (f i)) / 3 := by
        simp only [centroid, dotProduct]
        rw [Finset.sum_comm, Finset.sum_div]
        exact Finset.sum_congr rfl fun c _ => by rw [← Finset.mul_sum, mul_div_assoc]
      rw [this, Fin.sum_univ_three, h1, h1, h1]
      ring
    rw [hc]
    constructor
    · intro h
      by_contra hb
      push Not at hb
      have := mul_neg_of_pos_of_neg hκ hb
      linarith
    · intro h
      positivity
  constructor
  · intro hp
    exact hang.1 (hp.normal 90 rfl)
  · intro hb
    exact ⟨fun l hl => by obtain rfl := Option.some.inj hl; exact hang.2 hb, nofun, nofun, nofun⟩

theorem le_of_hull {L : ℕ} (points : Fin L → Vec3) (n : Vec3) (β : ℝ) (h : ∀ l, n ⬝ᵥ points l ≤ β) (x : Vec3) (hx : x ∈ convexHull ℝ (Set.range points)) :
    n ⬝ᵥ x ≤ β := by
  have hconv : Convex ℝ {x : Vec3 | n ⬝ᵥ x ≤ β} := by
    intro a ha b hb u v hu hv huv
    simp only [Set.mem_setOf_eq] at ha hb ⊢
    rw [dotProduct_add, dotProduct_smul, dotProduct_smul, smul_eq_mul, smul_eq_mul]
    calc u * n ⬝ᵥ a + v * n ⬝ᵥ b ≤ u * β + v * β := add_le_add (mul_le_mul_of_nonneg_left ha hu) (mul_le_mul_of_nonneg_left hb hv)
      _ = β := by rw [← add_mul, huv, one_mul]
  exact convexHull_min (by rintro _ ⟨l, rfl⟩; exact h l) hconv hx

theorem lt_of_interior {L : ℕ} (points : Fin L → Vec3) (n : Vec3) (hn : n ≠ 0) (β : ℝ) (h : ∀ l, n ⬝ᵥ points l ≤ β) (x : Vec3)
    (hx : x ∈ interior (convexHull ℝ (Set.range points))) : n ⬝ᵥ x < β := by
  have hc : ContinuousAt (fun t : ℝ => x + t • n) 0 := by fun_prop
  have hmem : (fun t : ℝ => x + t • n) 0 ∈ interior (convexHull ℝ (Set.range points)) := by simpa using hx
  have hev : ∀ᶠ t in nhds (0 : ℝ), x + t • n ∈ interior (convexHull ℝ (Set.range points)) := hc.eventually (isOpen_interior.mem_nhds hmem)
  obtain ⟨δ, hδ, hb⟩ := Metric.eventually_nhds_iff.1 hev
  have := le_of_hull points n β h _ (interior_subset (hb (y := δ / 2) (by rw [Real.dist_eq, sub_zero, abs_of_pos (by positivity)]; linarith)))
  rw [dotProduct_add, dotProduct_smul, smul_eq_mul] at this
  have hnn : 0 < n ⬝ᵥ n := lt_of_le_of_ne (Finset.sum_nonneg fun i _ => mul_self_nonneg _) fun h => hn (dotProduct_self_eq_zero.1 h.symm)
  have : 0 < δ / 2 * n ⬝ᵥ n := by positivity
  linarith

/-- From a point outside, some face is seen from its outer side. -/
theorem face_seen {L : ℕ} {points : Fin L → Vec3} {faces : List (Face L)} (hh : IsConvexHull points faces)
    (hin : (interior (convexHull ℝ (Set.range points))).Nonempty) (hout : (0 : Vec3) ∉ convexHull ℝ (Set.range points)) :
    ∃ f ∈ faces, ∀ (n : Vec3) (β : ℝ), n ≠ 0 → (∀ i, n ⬝ᵥ points (f i) = β) → (∀ l, n ⬝ᵥ points l ≤ β) → β < 0 := by
  obtain ⟨q, hq⟩ := hin
  obtain ⟨K, hK⟩ : ∃ K, K = convexHull ℝ (Set.range fun l => points l - q) := ⟨_, rfl⟩
  have hK0 : (0 : Vec3) ∈ interior K := by rw [hK]; exact hull_shift hq
  have hmemK : ∀ x, x ∈ convexHull ℝ (Set.range points) ↔ x - q ∈ K := by
    intro x
    have h1 : (fun l => points l - q) = (fun y : Vec3 => y - q) ∘ points := rfl
    have h2 := (AffineMap.image_convexHull (𝕜 := ℝ) (AffineMap.id ℝ Vec3 - AffineMap.const ℝ Vec3 q) (Set.range points))
    have h3 : ⇑(AffineMap.id ℝ Vec3 - AffineMap.const ℝ Vec3 q) = fun y : Vec3 => y - q := by funext y; simp
    rw [h3] at h2
    rw [hK, h1, Set.range_comp, ← h2]
    constructor
    · intro hx
      exact ⟨x, hx, rfl⟩
    · rintro ⟨y, hy, hyx⟩
      rwa [← sub_left_injective hyx]
  have hconv : Convex ℝ K := by rw [hK]; exact convex_convexHull ℝ _
  have hnhds : K ∈ nhds (0 : Vec3) := mem_interior_iff_mem_nhds.1 hK0
  have hcl : IsClosed K := by rw [hK]; exact Set.Finite.isClosed_convexHull ℝ (Set.finite_range _)
  have hg : 1 < gauge K (-q) := by
    by_contra hg
    push Not at hg
    have := (gauge_le_one_iff_mem_closure hconv hnhds).1 hg
    rw [hcl.closure_eq] at this
    exact hout ((hmemK 0).2 (by rwa [zero_sub]))
  have hgp : 0 < gauge K (-q) := by linarith
  have hfr : (1 / gauge K (-q)) • (-q) ∈ frontier K := by
    rw [← gauge_eq_one_iff_mem_frontier hconv hnhds, gauge_smul_of_nonneg (by positivity), smul_eq_mul]
    field_simp
  have hfr' : q + (1 / gauge K (-q)) • (-q) ∈ frontier (convexHull ℝ (Set.range points)) := by
    have hcl' : IsClosed (convexHull ℝ (Set.range points)) := Set.Finite.isClosed_convexHull ℝ (Set.finite_range _)
    rw [hcl.frontier_eq] at hfr
    rw [hcl'.frontier_eq]
    refine ⟨(hmemK _).2 (by rw [add_sub_cancel_left]; exact hfr.1), fun hi => hfr.2 ?_⟩
    obtain ⟨U, hU, hUo, hxU⟩ := mem_interior.1 hi
    refine mem_interior.2 ⟨(fun y : Vec3 => q + y) ⁻¹' U, fun y hy => ?_, hUo.preimage (by fun_prop), hxU⟩
    have := (hmemK _).1 (hU hy)
    rwa [add_sub_cancel_left] at this
  obtain ⟨f, hf, hx⟩ := hh.covers _ hfr'
  refine ⟨f, hf, fun n β hn h1 h2 => ?_⟩
  have hxb : n ⬝ᵥ (q + (1 / gauge K (-q)) • (-q)) = β := by
    refine le_antisymm (le_of_hull (fun i => points (f i)) n β (fun i => (h1 i).le) _ hx) ?_
    have := le_of_hull (fun i => points (f i)) (-n) (-β) (fun i => by rw [neg_dotProduct, h1]) _ hx
    rw [neg_dotProduct] at this
    linarith
  have hqb := lt_of_interior points n hn β h2 q hq
  rw [dotProduct_add, dotProduct_smul, dotProduct_neg, smul_eq_mul] at hxb
  have e : β * gauge K (-q) = n ⬝ᵥ q * (gauge K (-q) - 1) := by
    rw [← hxb]
    field_simp
    ring
  nlinarith

/-- **C155** On a setup with all faces valid, `pop_triangles(normal_limit=90)` keeps all of them exactly if the listener is within the hull. -/
theorem C155_inside {L : ℕ} {h : Hull L} (hw : WellFormed h) (hh : IsConvexHull h.points h.simplices) (hs : ∀ f ∈ h.simplices, Sided h.points f)
    (hv : h.valid = h.simplices) (hin : (interior (convexHull ℝ (Set.range h.points))).Nonempty) :
    (popTriangles h (some 90) none none none).valid = h.valid ↔ h.listener ∈ convexHull ℝ (Set.range h.points) := by
  classical
  rw [hw.listener]
  constructor
  · intro he
    by_contra hout
    obtain ⟨f, hf, hb⟩ := face_seen hh hin hout
    obtain ⟨n, β, hn, h1, h2, h3⟩ := C155_normal_limit hw hh f (by rw [hv]; exact hf) (hs f hf)
    rw [hw.listener] at h1 h2
    simp only [sub_zero] at h1 h2
    have := hb n β hn h1 h2
    rw [he, hv] at h3
    linarith [h3.1 hf]
  · intro hmem
    have hall : ∀ f ∈ h.valid, f ∈ (popTriangles h (some 90) none none none).valid := by
      intro f hf
      obtain ⟨n, β, hn, h1, h2, h3⟩ := C155_normal_limit hw hh f hf (hs f (hw.valid.subset hf))
      refine h3.2 ?_
      rw [hw.listener] at h2
      simp only [sub_zero] at h2
      have := le_of_hull h.points n β h2 0 hmem
      rwa [dotProduct_zero] at this
    rw [C35_survive hw] at hall ⊢
    simp only at hall ⊢
    exact List.filter_eq_self.2 fun f hf => (List.mem_filter.1 (hall f hf)).2

/-! ### On the octahedron -/

theorem oct_sided : ∀ f ∈ Oct.faces, Sided Oct.pts f := by
  intro f hf
  unfold Sided
  have hb : calculateBarycenter Oct.pts = 0 := Oct.barycenter_pts
  rw [hb]
  simp only [Oct.faces, List.mem_cons, List.not_mem_nil, or_false] at hf
  rcases hf with rfl | rfl | rfl | rfl | rfl | rfl | rfl | rfl <;>
    simp [Oct.pts, centroid, cross_apply, dotProduct, Fin.sum_univ_three] <;> norm_num

theorem oct_faces_hull : IsConvexHull Oct.hull.points Oct.hull.simplices := by
  have hraw : Oct.faces = sortVertices Oct.rawFaces := by decide +kernel
  show IsConvexHull Oct.pts Oct.faces
  rw [hraw]
  exact hull_sorted oct_isHull

/-- `C155_outer`. -/
example : ∃ v, (calculateFaceNormals Oct.pts Oct.faces)[0]? = some v ∧ v ≠ 0 ∧ ∀ l i, v ⬝ᵥ (Oct.pts l - Oct.pts ((![0, 2, 4] : Face 6) i)) ≤ 0 :=
  C155_outer Oct.pts Oct.faces oct_faces_hull 10e-6 (by norm_num) 0 ![0, 2, 4] rfl (oct_sided _ (by decide))

/-- `C155_inside`, `C155_normal_limit`: the listener in the middle of the octahedron. -/
example : (popTriangles Oct.hull (some 90) none none none).valid = Oct.faces ∧ ∃ (n : Vec3) (β : ℝ), n ≠ 0 ∧ (∀ l, n ⬝ᵥ (Oct.pts l - 0) ≤ β) ∧
    (![0, 2, 4] ∈ (popTriangles Oct.hull (some 90) none none none).valid ↔ 0 ≤ β) := by
  refine ⟨(C155_inside oct_wf oct_faces_hull oct_sided rfl ⟨0, oct_interior 0 (by simp)⟩).2 (interior_subset (oct_interior 0 (by simp))), ?_⟩
  obtain ⟨n, β, h1, _, h2, h3⟩ := C155_normal_limit oct_wf oct_faces_hull ![0, 2, 4] (by show _ ∈ Oct.faces; decide) (oct_sided _ (by decide))
  exact ⟨n, β, h1, h2, h3⟩

end Verif.Props
