import Verif.Props.Surround

/-! VBAP compared with all other ways to distribute a source over the loudspeakers: C171. -/

namespace Verif.Props
open Real Verif.Sph Verif.Utils Verif.Decoder

/-- The velocity vector of gains, computed with the loudspeaker positions (directions, if these are at distance one). -/
noncomputable def velocity {L : ℕ} (points : Fin L → Vec3) (x : Fin L → ℝ) : Vec3 := (∑ l, x l)⁻¹ • ∑ l, x l • points l

theorem support_pos {L : ℕ} {points : Fin L → Vec3} {n : Vec3} {β : ℝ} (hn : n ≠ 0) (h2 : ∀ l, n ⬝ᵥ points l ≤ β)
    (hin : (0 : Vec3) ∈ interior (convexHull ℝ (Set.range points))) : 0 < β := by
  have hK : ∀ x ∈ convexHull ℝ (Set.range points), n ⬝ᵥ x ≤ β := by
    intro x hx
    have hconv : Convex ℝ {x : Vec3 | n ⬝ᵥ x ≤ β} := by
      intro a ha b hb u v hu hv huv
      simp only [Set.mem_setOf_eq] at ha hb ⊢
      rw [dotProduct_add, dotProduct_smul, dotProduct_smul, smul_eq_mul, smul_eq_mul]
      calc u * n ⬝ᵥ a + v * n ⬝ᵥ b ≤ u * β + v * β := add_le_add (mul_le_mul_of_nonneg_left ha hu) (mul_le_mul_of_nonneg_left hb hv)
        _ = β := by rw [← add_mul, huv, one_mul]
    exact convexHull_min (by rintro _ ⟨l, rfl⟩; exact h2 l) hconv hx
  have hc : ContinuousAt (fun t : ℝ => t • n) 0 := by fun_prop
  have hmem : (fun t : ℝ => t • n) 0 ∈ interior (convexHull ℝ (Set.range points)) := by simpa using hin
  have hev : ∀ᶠ t in nhds (0 : ℝ), t • n ∈ interior (convexHull ℝ (Set.range points)) := hc.eventually (isOpen_interior.mem_nhds hmem)
  obtain ⟨δ, hδ, hb⟩ := Metric.eventually_nhds_iff.1 hev
  have := hK _ (interior_subset (hb (y := δ / 2) (by rw [Real.dist_eq, sub_zero, abs_of_pos (by positivity)]; linarith)))
  rw [dotProduct_smul, smul_eq_mul] at this
  have hnn : 0 < n ⬝ᵥ n := lt_of_le_of_ne (Finset.sum_nonneg fun i _ => mul_self_nonneg _) fun h => hn (dotProduct_self_eq_zero.1 h.symm)
  have : 0 < δ / 2 * n ⬝ᵥ n := by positivity
  linarith

theorem dot_combination {L : ℕ} (n : Vec3) (points : Fin L → Vec3) (x : Fin L → ℝ) : n ⬝ᵥ ∑ l, x l • points l = ∑ l, x l * n ⬝ᵥ points l := by
  rw [dotProduct_sum]
  exact Finset.sum_congr rfl fun l _ => by rw [dotProduct_smul, smul_eq_mul]

/-- Gains on one face with the vector sum of other gains that are not negative have the smaller sum; if the sums agree, and no further loudspeaker is in the plane of the face, the gains do. -/
theorem face_least {L : ℕ} {points : Fin L → Vec3} {faces : List (Face L)} (hh : IsConvexHull points faces)
    (hin : (0 : Vec3) ∈ interior (convexHull ℝ (Set.range points))) (f : Face L) (hf : f ∈ faces) (z y : Fin L → ℝ) (hz : ∀ l, z l ≠ 0 → ∃ i, f i = l)
    (hy : ∀ l, 0 ≤ y l) (he : ∑ l, z l • points l = ∑ l, y l • points l) :
    ∑ l, z l ≤ ∑ l, y l ∧
    ((∀ (n : Vec3) (β : ℝ), n ≠ 0 → (∀ i, n ⬝ᵥ points (f i) = β) → ∀ l, n ⬝ᵥ points l = β → ∃ i, f i = l) → ∑ l, z l = ∑ l, y l → z = y) := by
  obtain ⟨n, β, hn, h1, h2⟩ := hh.support f hf
  have hβ := support_pos hn h2 hin
  have ez : ∑ l, z l * n ⬝ᵥ points l = β * ∑ l, z l := by
    rw [Finset.mul_sum]
    refine Finset.sum_congr rfl fun l _ => ?_
    by_cases h0 : z l = 0
    · rw [h0]; ring
    · obtain ⟨i, rfl⟩ := hz l h0
      rw [h1]; ring
  have e := congrArg (fun v => n ⬝ᵥ v) he
  simp only [dot_combination] at e
  rw [ez] at e
  have hle : ∀ l, y l * n ⬝ᵥ points l ≤ β * y l := fun l => by rw [mul_comm β]; exact mul_le_mul_of_nonneg_left (h2 l) (hy l)
  constructor
  · have : ∑ l, y l * n ⬝ᵥ points l ≤ β * ∑ l, y l := by
      rw [Finset.mul_sum]
      exact Finset.sum_le_sum fun l _ => hle l
    rw [← e] at this
    exact le_of_mul_le_mul_left this hβ
  · intro hgen hs
    have hterm : ∀ l, y l * n ⬝ᵥ points l = β * y l := by
      have : ∑ l, y l * n ⬝ᵥ points l = ∑ l, β * y l := by rw [← e, hs, Finset.mul_sum]
      intro l
      exact (Finset.sum_eq_sum_iff_of_le fun l _ => hle l).1 this l (Finset.mem_univ l)
    have hys : ∀ l, y l ≠ 0 → ∃ i, f i = l := by
      intro l hl
      refine hgen n β hn h1 l ?_
      have := hterm l
      rw [mul_comm β] at this
      exact mul_left_cancel₀ hl this
    have hli := hull_li hh hin f hf
    have hinj : Function.Injective f := fun a b hab => hli.injective (by simp only [hab])
    have hd : ∑ i, (z (f i) - y (f i)) • points (f i) = 0 := by
      have red : ∀ x : Fin L → ℝ, (∀ l, x l ≠ 0 → ∃ i, f i = l) → ∑ l, x l • points l = ∑ i, x (f i) • points (f i) := by
        intro x hx
        refine Eq.trans ?_ (Finset.sum_map Finset.univ ⟨f, hinj⟩ fun l => x l • points l)
        refine (Finset.sum_subset (Finset.subset_univ _) fun l _ hl => ?_).symm
        have : x l = 0 := by
          by_contra h0
          obtain ⟨i, hi⟩ := hx l h0
          exact hl (by simp only [Finset.mem_map, Finset.mem_univ, true_and, Function.Embedding.coeFn_mk]; exact ⟨i, hi⟩)
        rw [this, zero_smul]
      simp only [sub_smul, Finset.sum_sub_distrib]
      rw [← red z hz, ← red y hys, he, sub_self]
    have hall := Fintype.linearIndependent_iff.1 hli _ hd
    funext l
    by_cases hl : ∃ i, f i = l
    · obtain ⟨i, rfl⟩ := hl
      exact sub_eq_zero.1 (hall i)
    · have a1 : z l = 0 := by by_contra h0; exact hl (hz l h0)
      have a2 : y l = 0 := by by_contra h0; exact hl (hys l h0)
      rw [a1, a2]

/-- Gains of one face with unit norm and no entry below the tolerance have a positive sum. -/
theorem renders_sum_pos {L : ℕ} {p : ℝ} (hp : 1 ≤ p) {points : Fin L → Vec3} {f : Face L} (hinj : Function.Injective f) {s : Vec3} {g : Fin L → ℝ} (h : RendersOn p points f s g) : 0 < ∑ l, g l := by
  have red : ∀ F : Fin L → ℝ, (∀ l, g l = 0 → F l = 0) → ∑ l, F l = ∑ i, F (f i) := by
    intro F hF
    refine Eq.trans ?_ (Finset.sum_map Finset.univ ⟨f, hinj⟩ F)
    refine (Finset.sum_subset (Finset.subset_univ _) fun l _ hl => hF l ?_).symm
    by_contra h0
    obtain ⟨i, hi⟩ := h.support l h0
    exact hl (by simp only [Finset.mem_map, Finset.mem_univ, true_and, Function.Embedding.coeFn_mk]; exact ⟨i, hi⟩)
  have hp0 : p ≠ 0 := by linarith
  have hn : ∑ l, |g l| ^ p = 1 := by
    have := h.norm
    unfold npNorm at this
    have hnn : 0 ≤ ∑ l, |g l| ^ p := Finset.sum_nonneg fun l _ => rpow_nonneg (abs_nonneg _) _
    have e := congrArg (fun t : ℝ => t ^ p) this
    simp only [one_rpow] at e
    rwa [← rpow_mul hnn, one_div, inv_mul_cancel₀ hp0, rpow_one] at e
  rw [red _ fun l hl => by rw [hl, abs_zero, zero_rpow hp0]] at hn
  rw [red _ fun l hl => hl]
  have hbig : ∃ i, 1 / 3 ≤ |g (f i)| := by
    by_contra hc
    push Not at hc
    have hi : ∀ i, |g (f i)| ^ p < 1 / 3 := by
      intro i
      rcases (abs_nonneg (g (f i))).eq_or_lt with h0 | h0
      · rw [← h0, zero_rpow hp0]; norm_num
      · calc |g (f i)| ^ p ≤ |g (f i)| ^ (1 : ℝ) := rpow_le_rpow_of_exponent_ge h0 (by linarith [hc i]) hp
          _ < 1 / 3 := by rw [rpow_one]; exact hc i
    rw [Fin.sum_univ_three] at hn
    linarith [hi 0, hi 1, hi 2]
  obtain ⟨i, hi⟩ := hbig
  have hpos : 1 / 3 ≤ g (f i) := by
    rcases abs_cases (g (f i)) with ⟨h1, -⟩ | ⟨h1, -⟩
    · rwa [h1] at hi
    · have := h.positive (f i)
      rw [h1] at hi
      norm_num at this hi
      linarith
  rw [Fin.sum_univ_three]
  have p0 := h.positive (f 0)
  have p1 := h.positive (f 1)
  have p2 := h.positive (f 2)
  norm_num at p0 p1 p2
  fin_cases i
  · have : 1 / 3 ≤ g (f 0) := hpos
    linarith
  · have : 1 / 3 ≤ g (f 1) := hpos
    linarith
  · have : 1 / 3 ≤ g (f 2) := hpos
    linarith

theorem velocity_norm {L : ℕ} {points : Fin L → Vec3} {x : Fin L → ℝ} {k : ℝ} (hk : 0 < k) {s : Vec3} (hs : 0 < ∑ l, x l) (he : ∑ l, x l • points l = k • s) :
    norm3 (velocity points x) = k / (∑ l, x l) * norm3 s := by
  unfold velocity
  rw [he, smul_smul, norm3_smul, abs_of_pos (by positivity)]
  congr 1
  field_simp

/-- **C171** Whatever other gains that are not negative, on any of the loudspeakers, render the direction of a source: those of `vbap` do so with the longest velocity vector, that is, with the least sum of amplitudes. If the plane of no face contains further loudspeakers,
all others with a velocity vector of that length are multiples of them. -/
theorem C171_sharpest {L : ℕ} (lstsq : Mat3 → Mat3) (hl : LstsqSpec lstsq) {p : ℝ} (hp : 1 ≤ p) (h : Hull L) (hc : CacheOk lstsq h) (hh : IsConvexHull h.points h.simplices)
    (hv : ∀ f ∈ h.valid, f ∈ h.simplices) (hin : (0 : Vec3) ∈ interior (convexHull ℝ (Set.range h.points))) (src : List Vec3) (hsrc : ∀ s ∈ src, s ≠ 0) :
    ∃ rows, (vbapHull lstsq p src none h).1 = .ok rows ∧ rows.length = src.length ∧ ∀ (i : ℕ) (s : Vec3) (row : Fin L → ℝ), src[i]? = some s → rows[i]? = some row →
      ∃ g : Fin L → ℝ, row = (fun l => h.d l ^ h.a * g l) ∧ (g = 0 ∨ 0 < ∑ l, g l ∧ (∃ c : ℝ, 0 < c ∧ velocity h.points g = c • s) ∧
        ∀ (x : Fin L → ℝ) (k : ℝ), (∀ l, 0 ≤ x l) → 0 < k → ∑ l, x l • h.points l = k • s →
          norm3 (velocity h.points x) ≤ norm3 (velocity h.points g) ∧
          ((∀ f ∈ h.simplices, ∀ (n : Vec3) (β : ℝ), n ≠ 0 → (∀ i, n ⬝ᵥ h.points (f i) = β) → ∀ l, n ⬝ᵥ h.points l = β → ∃ i, f i = l) →
            norm3 (velocity h.points x) = norm3 (velocity h.points g) → ∃ t : ℝ, 0 < t ∧ x = t • g)) := by
  have hli := fun f hf => hull_li hh hin f (hv f hf)
  have hinj : ∀ f ∈ h.valid, Function.Injective f := fun f hf a b hab => (hli f hf).injective (by simp only [hab])
  obtain ⟨rows, e1, e2, e3⟩ := C29_vbap lstsq hl (by linarith) h hc hinj src
  refine ⟨rows, e1, e2, fun i s row hi hr => ?_⟩
  obtain ⟨g, hg, hcase⟩ := e3 i s row hi hr
  refine ⟨g, hg, ?_⟩
  rcases hcase with rfl | ⟨f, hf, hren⟩
  · exact .inl rfl
  right
  have hs := hsrc s (List.mem_of_getElem? hi)
  obtain ⟨c, hc0, hcs⟩ := hren.direction (hli f hf)
  have hgs := renders_sum_pos hp (hinj f hf) hren
  refine ⟨hgs, ⟨c / ∑ l, g l, by positivity, ?_⟩, fun x k hx hk hxs => ?_⟩
  · unfold velocity
    rw [hcs, smul_smul]
    congr 1
    field_simp
  · have hx0 : 0 < ∑ l, x l := by
      refine lt_of_le_of_ne (Finset.sum_nonneg fun l _ => hx l) fun h0 => ?_
      have hz := (Finset.sum_eq_zero_iff_of_nonneg fun l _ => hx l).1 h0.symm
      have : k • s = 0 := by
        rw [← hxs]
        exact Finset.sum_eq_zero fun l hl => by rw [hz l hl, zero_smul]
      rcases smul_eq_zero.1 this with h1 | h1
      · exact hk.ne' h1
      · exact hs h1
    have sums : ∀ (t : ℝ) (y : Fin L → ℝ), ∑ l, t * y l = t * ∑ l, y l := fun t y => by rw [Finset.mul_sum]
    have vecs : ∀ (t : ℝ) (y : Fin L → ℝ), ∑ l, (t * y l) • h.points l = t • ∑ l, y l • h.points l := fun t y => by
      rw [Finset.smul_sum]
      exact Finset.sum_congr rfl fun l _ => mul_smul _ _ _
    have key := face_least hh hin f (hv f hf) (fun l => k * g l) (fun l => c * x l) (fun l hl => hren.support l (right_ne_zero_of_mul hl))
      (fun l => mul_nonneg hc0.le (hx l)) (by rw [vecs, vecs, hcs, hxs, smul_comm])
    rw [sums, sums] at key
    have hns : 0 < norm3 s := norm3_pos hs
    rw [velocity_norm hk hx0 hxs, velocity_norm hc0 hgs hcs]
    constructor
    · refine mul_le_mul_of_nonneg_right ?_ hns.le
      rw [div_le_div_iff₀ hx0 hgs]
      exact key.1
    · intro hgen heq
      have h1 := mul_right_cancel₀ hns.ne' heq
      rw [div_eq_div_iff hx0.ne' hgs.ne'] at h1
      have h2 := key.2 (hgen f (hv f hf)) h1
      refine ⟨k / c, by positivity, ?_⟩
      funext l
      have := congrFun h2 l
      rw [Pi.smul_apply, smul_eq_mul]
      field_simp
      linarith

/-- **C171** On a new setup with loudspeakers on all sides of the listener this is so for every source. -/
theorem C171_everywhere {L : ℕ} (hL : 0 < L) (qhull : (L : ℕ) → (Fin L → Vec3) → Py (List (Face L))) (points : Fin L → Vec3) (listener : Vec3)
    (hq : ∀ faces, qhull L (fun l => points l - listener) = .ok faces → IsConvexHull (fun l => points l - listener) faces)
    (hin : listener ∈ interior (convexHull ℝ (Set.range points))) (h : Hull L) (hh : mkHull qhull points listener = .ok h)
    (hc : ∀ f ∈ h.simplices, norm3 (listener - meanPoint points) ≤ norm3 (faceCentre points f - meanPoint points))
    (lstsq : Mat3 → Mat3) (hl : LstsqSpec lstsq) {p : ℝ} (hp : 1 ≤ p) (src : List Vec3) (hsrc : ∀ s ∈ src, s ≠ 0) :
    ∃ rows, (vbapHull lstsq p src none h).1 = .ok rows ∧ rows.length = src.length ∧ ∀ (i : ℕ) (s : Vec3) (row : Fin L → ℝ), src[i]? = some s → rows[i]? = some row →
      ∃ g : Fin L → ℝ, row = (fun l => h.d l ^ h.a * g l) ∧ (∃ c : ℝ, 0 < c ∧ velocity (fun l => points l - listener) g = c • s) ∧
        ∀ (x : Fin L → ℝ) (k : ℝ), (∀ l, 0 ≤ x l) → 0 < k → ∑ l, x l • (points l - listener) = k • s →
          norm3 (velocity (fun l => points l - listener) x) ≤ norm3 (velocity (fun l => points l - listener) g) := by
  obtain ⟨h1, h2, h3, h4⟩ := surround_faces hL qhull points listener hq hin h hh hc
  have hcache : CacheOk lstsq h := by intro b hb; rw [h3] at hb; cases hb
  have hp1 : h.points = (fun l => points l - listener) := by
    unfold mkHull at hh
    simp only at hh
    cases hf : qhull L fun l => points l - listener with
    | error e => rw [hf] at hh; cases hh
    | ok faces =>
      rw [hf] at hh
      obtain rfl := Except.ok.inj hh
      rfl
  have hhull : IsConvexHull h.points h.valid := h1
  obtain ⟨rows, e1, e2, e3⟩ := C171_sharpest lstsq hl hp { h with simplices := h.valid } hcache hhull (fun f hf => hf) h2 src hsrc
  obtain ⟨rows', k1, -, k3⟩ := C154_everywhere hL qhull points listener hq hin h hh hc lstsq hl (p := p) (by linarith) src hsrc
  have e1' : (vbapHull lstsq p src none h).1 = .ok rows := e1
  rw [e1'] at k1
  obtain rfl := Except.ok.inj k1
  refine ⟨rows, e1', e2, fun i s row hi hr => ?_⟩
  obtain ⟨g, hg, hcase⟩ := e3 i s row hi hr
  obtain ⟨g', hg', -, -, hn⟩ := k3 i s row hi hr
  refine ⟨g, hg, ?_⟩
  simp only [hp1] at hcase
  rcases hcase with rfl | ⟨-, hd, hx⟩
  · exfalso
    obtain ⟨c, hc0, hcs⟩ := hn
    have hz : ∑ l, g' l • (points l - listener) = 0 := by
      refine Finset.sum_eq_zero fun l _ => ?_
      by_cases h0 : points l - listener = 0
      · rw [h0, smul_zero]
      · have := congrFun (hg'.symm.trans hg) l
        simp only [Pi.zero_apply, mul_zero] at this
        rw [(mul_eq_zero.1 this).resolve_left (rpow_pos_of_pos (by rw [h4 l, hp1]; exact norm3_pos h0) _).ne', zero_smul]
    rw [hz] at hcs
    rcases smul_eq_zero.1 hcs.symm with h0 | h0
    · exact hc0.ne' h0
    · exact hsrc s (List.mem_of_getElem? hi) h0
  · exact ⟨hd, fun x k hx0 hk hxs => (hx x k hx0 hk hxs).1⟩

/-- The octahedron as a new setup. -/
example (lstsq : Mat3 → Mat3) (hl : LstsqSpec lstsq) : ∃ rows, (vbapHull lstsq 2 [![1, 2, -3]] none Oct.hull).1 = .ok rows ∧ rows.length = 1 := by
  obtain ⟨rows, h1, h2, -⟩ := C171_everywhere (L := 6) (by norm_num) Oct.qhull Oct.pts 0 (fun faces hf => by
      rw [Oct.sub_zero_pts] at hf ⊢
      have : faces = Oct.rawFaces := by
        unfold Oct.qhull at hf
        rw [dif_pos rfl] at hf
        rw [← Except.ok.inj hf]
        exact List.map_id _
      rw [this]
      exact oct_isHull) (oct_interior 0 (by simp)) Oct.hull Oct.mkHull_eq (fun f _ => by
      have : meanPoint Oct.pts = 0 := by
        unfold meanPoint
        rw [Fin.sum_univ_six]
        ext c
        fin_cases c <;> simp [Oct.pts]
      rw [this, sub_zero]
      have : norm3 (0 : Vec3) = 0 := by simp [norm3]
      rw [this]
      exact Real.sqrt_nonneg _) lstsq hl (p := 2) (by norm_num) [![1, 2, -3]] (fun s hs h0 => by
      rw [List.mem_singleton] at hs
      have := congrFun (hs.symm.trans h0) 0
      simp at this)
  exact ⟨rows, h1, h2⟩

theorem oct_planes : ∀ f ∈ Oct.faces, ∀ (n : Vec3) (β : ℝ), n ≠ 0 → (∀ i, n ⬝ᵥ Oct.pts (f i) = β) → ∀ l, n ⬝ᵥ Oct.pts l = β → ∃ i, f i = l := by
  intro f hf n β hn hi l hl
  have h0 := hi 0
  have h1 := hi 1
  have h2 := hi 2
  have hβ : β ≠ 0 := by
    rintro rfl
    apply hn
    simp only [Oct.faces, List.mem_cons, List.not_mem_nil, or_false] at hf
    rcases hf with rfl | rfl | rfl | rfl | rfl | rfl | rfl | rfl <;>
    · simp [Oct.pts, dotProduct, Fin.sum_univ_three] at h0 h1 h2
      funext c
      fin_cases c <;> assumption
  have key : ∀ f ∈ Oct.faces, ∀ l : Fin 6, (∃ i, f i = l) ∨ ∃ i, Oct.pts (f i) = -Oct.pts l := by
    have opp : ∀ f ∈ Oct.faces, ∀ l : Fin 6, (∃ i, f i = l) ∨ ∃ i, f i = (![1, 0, 3, 2, 5, 4] : Fin 6 → Fin 6) l := by decide +kernel
    intro f hf l
    refine (opp f hf l).imp_right ?_
    rintro ⟨i, hi⟩
    refine ⟨i, ?_⟩
    rw [hi]
    funext c
    fin_cases l <;> fin_cases c <;> simp [Oct.pts]
  rcases key f hf l with h | ⟨i, h⟩
  · exact h
  · have := hi i
    rw [h, dotProduct_neg, hl] at this
    exact absurd (by linarith) hβ

/-- The octahedron: the three loudspeakers around a source beat any other distribution. -/
example (lstsq : Mat3 → Mat3) (hl : LstsqSpec lstsq) (src : List Vec3) (hsrc : ∀ s ∈ src, s ≠ 0) : ∃ rows, (vbapHull lstsq 2 src none Oct.hull).1 = .ok rows ∧
    ∀ (i : ℕ) (s : Vec3) (row : Fin 6 → ℝ), src[i]? = some s → rows[i]? = some row → row = 0 ∨
      ∀ (x : Fin 6 → ℝ) (k : ℝ), (∀ l, 0 ≤ x l) → 0 < k → ∑ l, x l • Oct.pts l = k • s → norm3 (velocity Oct.pts x) ≤ norm3 (velocity Oct.pts row) ∧
        (norm3 (velocity Oct.pts x) = norm3 (velocity Oct.pts row) → ∃ t : ℝ, 0 < t ∧ x = t • row) := by
  have hraw : Oct.faces = sortVertices Oct.rawFaces := by decide +kernel
  obtain ⟨rows, e1, -, e3⟩ := C171_sharpest lstsq hl (p := 2) (by norm_num) Oct.hull (fun b hb => by cases hb)
    (by show IsConvexHull Oct.pts Oct.faces; rw [hraw]; exact hull_sorted oct_isHull) (fun f hf => hf) (oct_interior 0 (by simp)) src hsrc
  refine ⟨rows, e1, fun i s row hi hr => ?_⟩
  obtain ⟨g, hg, hcase⟩ := e3 i s row hi hr
  have : row = g := by
    rw [hg]; funext l
    show (1 : ℝ) ^ (1 : ℝ) * g l = g l
    rw [one_rpow, one_mul]
  rw [this]
  rcases hcase with h0 | ⟨-, -, h⟩
  · exact .inl h0
  · exact .inr fun x k hx hk hs => ⟨(h x k hx hk hs).1, (h x k hx hk hs).2 oct_planes⟩

end Verif.Props
