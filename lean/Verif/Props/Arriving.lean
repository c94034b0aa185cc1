import Verif.Props.Refining
import Verif.Props.AmbiDecoders
import Verif.Model.Binaural

/-! What arrives at the listener from panned loudspeakers at different distances: C166. -/

namespace Verif.Props
open Decoder Utils Matrix Real

/-- The distance of a loudspeaker from the listener. -/
noncomputable def distTo {L : ℕ} (points : Fin L → Vec3) (listener : Vec3) (l : Fin L) : ℝ := norm3 (points l - listener)

/-- The unit vector from the listener to a loudspeaker. -/
noncomputable def dirTo {L : ℕ} (points : Fin L → Vec3) (listener : Vec3) (l : Fin L) : Vec3 := (distTo points listener l)⁻¹ • (points l - listener)

theorem radius_norm3 (v : Vec3) : (cart2sph (v 0) (v 1) (v 2) false false).2.2 = norm3 v := by
  rw [Oct.cart2sph_radius]
  unfold norm3
  congr 1
  simp only [dotProduct, Fin.sum_univ_three]
  ring

theorem made_fields {L : ℕ} {qhull : (L : ℕ) → (Fin L → Vec3) → Py (List (Face L))} {points : Fin L → Vec3} {listener : Vec3} {h : Hull L}
    (hh : mkHull qhull points listener = .ok h) : (h.points = fun l => points l - listener) ∧ h.listener = 0 ∧ h.a = 1 ∧ h.invBase = none ∧
      ∀ l, h.d l = distTo points listener l := by
  unfold mkHull at hh
  change (qhull L fun l => points l - listener).bind _ = _ at hh
  cases hq : qhull L (fun l => points l - listener) with
  | error e => rw [hq] at hh; cases hh
  | ok faces =>
    rw [hq] at hh
    have := Except.ok.inj hh
    rw [← this]
    exact ⟨rfl, rfl, rfl, rfl, fun l => radius_norm3 _⟩

/-- **C166**, where it holds: a source panned by `vbap` over the loudspeakers of a setup, each attenuated by its distance on the way to the listener as `binauralize` does. What arrives has the norm asked for; the loudspeaker
signals themselves, seen from the listener, add up to the direction of the source; and so does what arrives if the loudspeakers that play are equally far away. Missing: loudspeakers that play from different distances, see
`C166_distances_fail`. -/
theorem C166_arriving_partial {L : ℕ} (lstsq : Mat3 → Mat3) (hl : LstsqSpec lstsq) {p : ℝ} (hp : 0 < p)
    (qhull : (L : ℕ) → (Fin L → Vec3) → Py (List (Face L))) (points : Fin L → Vec3) (listener : Vec3) (h : Hull L) (hh : mkHull qhull points listener = .ok h) (hne : ∀ l, points l ≠ listener)
    (hinj : ∀ f ∈ h.valid, Function.Injective f) (hli : ∀ f ∈ h.valid, LinearIndependent ℝ fun i => h.points (f i)) (s : Vec3) :
    ∃ row arr : Fin L → ℝ, (vbapHull lstsq p [s] none h).1 = .ok [row] ∧ (∀ l, attenuated h (Matrix.of fun l (_ : Fin 1) => row l) l l.2 = [arr l]) ∧
      (∀ l, arr l = row l / distTo points listener l) ∧
      ((row = 0 ∧ ∀ f ∈ h.valid, ¬ Inside p h.points f s) ∨
        (npNorm p arr = 1 ∧ (∀ l, arr l > -10e-6) ∧ (∃ c : ℝ, 0 < c ∧ ∑ l, row l • dirTo points listener l = c • s) ∧
          ∀ r, (∀ l, row l ≠ 0 → distTo points listener l = r) → ∃ c : ℝ, 0 < c ∧ ∑ l, arr l • dirTo points listener l = c • s)) := by
  obtain ⟨m1, m2, m3, m4, m5⟩ := made_fields hh
  have hc : CacheOk lstsq h := by intro b hb; rw [m4] at hb; cases hb
  have hpos : ∀ l, 0 < distTo points listener l := fun l => norm3_pos (sub_ne_zero.2 (hne l))
  obtain ⟨rows, h1, h2, h3⟩ := C29_vbap lstsq hl hp h hc hinj [s]
  obtain ⟨row, rfl⟩ : ∃ row, rows = [row] := List.length_eq_one_iff.1 (by simpa using h2)
  obtain ⟨g, hg, h4⟩ := h3 0 s row rfl rfl
  have hrow : ∀ l, row l = distTo points listener l * g l := by
    intro l; rw [hg]; simp only [m3, m5, rpow_one]
  have harr : ∀ l, row l / distTo points listener l = g l := by
    intro l; rw [hrow l, mul_div_cancel_left₀ _ (hpos l).ne']
  have hg0 : row = 0 ↔ g = 0 := by
    constructor
    · intro h0; funext l; rw [← harr l, h0]; simp
    · intro h0; funext l; rw [hrow l, h0]; simp
  refine ⟨row, g, h1, fun l => ?_, fun l => (harr l).symm, ?_⟩
  · unfold attenuated
    simp only [List.ofFn_succ, List.ofFn_zero, radius_norm3, m2, m3, sub_zero, rpow_one, Matrix.of_apply, Fin.eta]
    rw [← harr l, m1]
    congr 1
    change 1 / distTo points listener l * row l = _
    rw [one_div, inv_mul_eq_div]
  · by_cases hz : row = 0
    · left
      refine ⟨hz, ?_⟩
      obtain ⟨row', e1, e2⟩ := C30_first lstsq hl hp h hc hinj hli (fun l => by rw [m5, m1]; rfl) s
      rw [h1] at e1
      obtain rfl : row = row' := by simpa using e1
      rcases e2 with ⟨-, e3⟩ | ⟨e3, -⟩
      · exact e3
      · exact absurd hz e3
    · right
      rcases h4 with h0 | ⟨f, hf, hr⟩
      · exact absurd (hg0.2 h0) hz
      obtain ⟨c, hc0, hdir⟩ := hr.direction (hli f hf)
      have e1 : ∑ l, row l • dirTo points listener l = c • s := by
        rw [← hdir]
        refine Finset.sum_congr rfl fun l _ => ?_
        rw [hrow, dirTo, smul_smul, mul_right_comm, mul_inv_cancel₀ (hpos l).ne', one_mul, m1]
      refine ⟨hr.norm, hr.positive, ⟨c, hc0, e1⟩, fun r hr' => ?_⟩
      obtain ⟨l0, hl0⟩ : ∃ l, row l ≠ 0 := by
        by_contra hcon; push Not at hcon; exact hz (funext hcon)
      have hr0 : 0 < r := by rw [← hr' l0 hl0]; exact hpos l0
      refine ⟨r⁻¹ * c, by positivity, ?_⟩
      rw [mul_smul, ← e1, Finset.smul_sum]
      refine Finset.sum_congr rfl fun l _ => ?_
      rw [smul_smul]
      congr 1
      by_cases hrl : row l = 0
      · rw [← harr l, hrl]; simp
      · rw [← harr l, hr' l hrl, inv_mul_eq_div]

/-- The octahedron with the front loudspeaker twice as far away. -/
def farPts : Fin 6 → Vec3 := ![![2, 0, 0], ![-1, 0, 0], ![0, 1, 0], ![0, -1, 0], ![0, 0, 1], ![0, 0, -1]]

theorem far_made : ∃ h, mkHull Oct.qhull farPts 0 = .ok h ∧ h.valid = Oct.faces := by
  refine ⟨_, by unfold mkHull Oct.qhull; rw [dif_pos rfl]; rfl, ?_⟩
  change checkListenerInside (sortVertices (Oct.rawFaces.map fun f i => Fin.cast rfl (f i))) _ _ 0 = _
  rw [Oct.sort_raw, show (fun l => farPts l - (0 : Vec3)) = farPts by funext l; simp]
  have hb : calculateBarycenter farPts = ![1 / 6, 0, 0] := by
    funext c
    unfold calculateBarycenter
    rw [Fin.sum_univ_six]
    fin_cases c <;> simp [farPts] <;> norm_num
  rw [hb]
  unfold checkListenerInside calculateCentroids
  have hz : Oct.faces.zip (Oct.faces.map (centroid farPts)) = Oct.faces.map fun f => (f, centroid farPts f) := by
    rw [List.zip_map_right, ← List.map_id Oct.faces, List.zip_map']
    simp
  rw [hz, List.filter_eq_self.2]
  · rw [List.map_map]; exact List.map_id Oct.faces
  · intro t ht
    obtain ⟨f, hf, rfl⟩ := List.mem_map.1 ht
    simp only [decide_eq_true_eq, not_lt, zero_sub]
    simp only [Oct.faces, List.mem_cons, List.not_mem_nil, or_false] at hf
    rcases hf with rfl | rfl | rfl | rfl | rfl | rfl | rfl | rfl <;>
      simp [centroid, farPts, Fin.sum_univ_three, dotProduct] <;> norm_num

theorem far_li : ∀ f ∈ Oct.faces, LinearIndependent ℝ fun i => farPts (f i) := by
  intro f hf
  rw [li_iff_unit, Matrix.isUnit_iff_isUnit_det, Matrix.det_fin_three, isUnit_iff_ne_zero]
  simp only [Oct.faces, List.mem_cons, List.not_mem_nil, or_false] at hf
  rcases hf with rfl | rfl | rfl | rfl | rfl | rfl | rfl | rfl <;> simp [baseMat, farPts]

/-- **C166** is false for loudspeakers at different distances: the triplets are inverted with the positions, not with the directions, of the loudspeakers, so distances enter twice. With the front loudspeaker of the octahedron
twice as far away, a source in the middle of the front, left and top loudspeakers arrives from the direction (1, 2, 2) instead of (1, 1, 1). -/
theorem C166_distances_fail (lstsq : Mat3 → Mat3) (hl : LstsqSpec lstsq) {p : ℝ} (hp : 0 < p) :
    ∃ (h : Hull 6) (row : Fin 6 → ℝ) (c : ℝ), mkHull Oct.qhull farPts 0 = .ok h ∧ (vbapHull lstsq p [![1, 1, 1]] none h).1 = .ok [row] ∧ 0 < c ∧
      ∑ l, (row l / distTo farPts 0 l) • dirTo farPts 0 l = c • ![1, 2, 2] ∧
      ∀ c' : ℝ, ∑ l, (row l / distTo farPts 0 l) • dirTo farPts 0 l ≠ c' • ![1, 1, 1] := by
  obtain ⟨h, hh, hv⟩ := far_made
  obtain ⟨m1, m2, m3, m4, m5⟩ := made_fields hh
  have m1' : h.points = farPts := by rw [m1]; funext l; simp
  have hpos : ∀ l, 0 < distTo farPts 0 l := fun l => norm3_pos (by
    rw [sub_zero]; intro h0
    have e0 := congrFun h0 0
    have e1 := congrFun h0 1
    have e2 := congrFun h0 2
    fin_cases l <;> simp [farPts] at e0 e1 e2)
  obtain ⟨b, hb⟩ : ∃ b : Vec3, b = ![1 / 2, 1, 1] := ⟨_, rfl⟩
  have hproj : (lstsq (baseMat farPts ![0, 2, 4])).transpose.mulVec ![1, 1, 1] = b :=
    (proj_coords hl farPts ![0, 2, 4] (far_li _ (by decide)) ![1, 1, 1] b).2 (by
      rw [hb, Fin.sum_univ_three]; funext c; fin_cases c <;> simp [farPts])
  have hn : 0 < npNorm p b := lt_of_le_of_ne (npNorm_nonneg p b) fun h0 => by
    have := congrFun ((npNorm_eq_zero hp b).1 h0.symm) 1
    simp [hb] at this
  have hb0 : ∀ i, 0 < b i := by rw [hb]; intro i; fin_cases i <;> simp
  have htry : tryFace p (lstsq (baseMat farPts ![0, 2, 4])).transpose ![1, 1, 1] = some fun i => b i / npNorm p b := by
    unfold tryFace
    simp only [hproj]
    rw [if_neg hn.ne', if_pos fun i => lt_trans (by norm_num) (div_pos (hb0 i) hn)]
  have hrow := row_first lstsq p farPts ![1, 1, 1] ![0, 2, 4] _ htry [] Oct.faces.tail nofun
  have hvb := hull_row lstsq p h m4 ![1, 1, 1] _ (by rw [hv, m1']; exact hrow)
  have hsum : ∑ l, (h.d l ^ h.a * writeRow [((![0, 2, 4] : Face 6) 0, b 0 / npNorm p b), ((![0, 2, 4] : Face 6) 1, b 1 / npNorm p b), ((![0, 2, 4] : Face 6) 2, b 2 / npNorm p b)] l / distTo farPts 0 l) • dirTo farPts 0 l
      = (1 / (2 * npNorm p b)) • (![1, 2, 2] : Vec3) := by
    have e : ∀ l (w : ℝ), h.d l ^ h.a * w / distTo farPts 0 l = w := fun l w => by
      rw [m3, m5, rpow_one, mul_div_cancel_left₀ _ (hpos l).ne']
    simp only [e]
    have d0 : distTo farPts 0 0 = 2 := by
      unfold distTo norm3; rw [show farPts 0 - 0 = ![2, 0, 0] by simp [farPts]]
      rw [show (![2, 0, 0] : Vec3) ⬝ᵥ ![2, 0, 0] = 2 ^ 2 by simp [dotProduct, Fin.sum_univ_three]; norm_num]
      exact Real.sqrt_sq (by norm_num)
    have d2 : distTo farPts 0 2 = 1 := by
      unfold distTo norm3; rw [show farPts 2 - 0 = ![0, 1, 0] by simp [farPts]]
      simp [dotProduct, Fin.sum_univ_three]
    have d4 : distTo farPts 0 4 = 1 := by
      unfold distTo norm3; rw [show farPts 4 - 0 = ![0, 0, 1] by simp [farPts]]
      simp [dotProduct, Fin.sum_univ_three]
    have u0 : dirTo farPts 0 0 = ![1, 0, 0] := by unfold dirTo; rw [d0]; simp [farPts]
    have u2 : dirTo farPts 0 2 = ![0, 1, 0] := by unfold dirTo; rw [d2]; simp [farPts]
    have u4 : dirTo farPts 0 4 = ![0, 0, 1] := by unfold dirTo; rw [d4]; simp [farPts]
    have b0 : b 0 = 1 / 2 := by rw [hb]; rfl
    have b1 : b 1 = 1 := by rw [hb]; rfl
    have b2 : b 2 = 1 := by rw [hb]; rfl
    rw [Fin.sum_univ_six, u0, u2, u4, b0, b1, b2]
    generalize npNorm p b = n at hn
    have := hn.ne'
    funext c
    fin_cases c <;> simp [writeRow, Function.update] <;> field_simp
  refine ⟨h, _, 1 / (2 * npNorm p b), hh, hvb, by positivity, hsum, fun c' hc' => ?_⟩
  rw [hsum] at hc'
  have e0 := congrFun hc' 0
  have e1 := congrFun hc' 1
  simp at e0 e1
  have : (npNorm p b)⁻¹ * 2⁻¹ = 0 := by linarith
  have h3 : (npNorm p b)⁻¹ * 2⁻¹ ≠ 0 := by positivity
  exact h3 this

/-- `C166_arriving_partial`: the octahedron, where all loudspeakers are equally far away; and the one of `C166_distances_fail` meets the remaining hypotheses. -/
example (lstsq : Mat3 → Mat3) (hl : LstsqSpec lstsq) : ∃ row arr : Fin 6 → ℝ, (vbapHull lstsq 1 [![1, 2, 3]] none Oct.hull).1 = .ok [row] ∧ npNorm 1 arr = 1 ∧ ∃ c : ℝ, 0 < c ∧ ∑ l, arr l • dirTo Oct.pts 0 l = c • ![1, 2, 3] := by
  obtain ⟨row, arr, h1, -, -, h4⟩ := C166_arriving_partial lstsq hl one_pos Oct.qhull Oct.pts 0 Oct.hull Oct.mkHull_eq (by
    intro l h0
    have e0 := congrFun h0 0
    have e1 := congrFun h0 1
    have e2 := congrFun h0 2
    fin_cases l <;> simp [Oct.pts] at e0 e1 e2) Oct.inj Oct.li ![1, 2, 3]
  have hd : ∀ l, distTo Oct.pts 0 l = 1 := fun l => by
    unfold distTo; rw [sub_zero, ← radius_norm3]; exact Oct.radius_pts l
  rcases h4 with ⟨-, h5⟩ | ⟨h5, -, -, h6⟩
  · refine absurd ?_ (h5 ![0, 2, 4] (by show _ ∈ Oct.faces; decide))
    have hn : 0 < npNorm 1 (![1, 2, 3] : Vec3) := lt_of_le_of_ne (npNorm_nonneg _ _) fun h0 => by
      have := congrFun ((npNorm_eq_zero one_pos _).1 h0.symm) 0
      simp at this
    refine ⟨![1, 2, 3], ?_, hn.ne', fun i => lt_of_lt_of_le (by norm_num : (-10e-6 : ℝ) < 0) (div_nonneg ?_ hn.le)⟩
    · funext c; fin_cases c <;> simp [Fin.sum_univ_three, Oct.hull, Oct.pts]
    · fin_cases i <;> simp
  · exact ⟨row, arr, h1, h5, h6 1 fun l _ => hd l⟩

/-- **C166**: from the nearest loudspeaker the source arrives with exactly its own level, whatever the distance. -/
theorem C166_nearest {L : ℕ} (hL : 0 < L) (qhull : (L : ℕ) → (Fin L → Vec3) → Py (List (Face L))) (points : Fin L → Vec3) (listener : Vec3) (h : Hull L)
    (hh : mkHull qhull points listener = .ok h) (hne : ∀ l, points l ≠ listener) (s : Vec3) (hs : s ≠ 0) :
    ∃ (row : Fin L → ℝ) (i : Fin L), nearestLoudspeaker h s = .ok row ∧ (∀ l, angleBetween s (points i - listener) ≤ angleBetween s (points l - listener)) ∧
      ∀ l, attenuated h (Matrix.of fun l (_ : Fin 1) => row l) l l.2 = [if l = i then 1 else 0] := by
  obtain ⟨m1, m2, m3, m4, m5⟩ := made_fields hh
  have hpos : ∀ l, 0 < distTo points listener l := fun l => norm3_pos (sub_ne_zero.2 (hne l))
  obtain ⟨i, h1, h2, -⟩ := C44_nearest hL h (fun l => by rw [m5, m1]; rfl) (fun l => by rw [m1]; exact sub_ne_zero.2 (hne l)) s hs
  refine ⟨_, i, h1, fun l => by have := h2 l; rw [m1] at this; exact this, fun l => ?_⟩
  unfold attenuated
  simp only [List.ofFn_succ, List.ofFn_zero, radius_norm3, m2, m3, sub_zero, rpow_one, Matrix.of_apply, Fin.eta]
  congr 1
  rw [m1]
  change 1 / distTo points listener l * _ = _
  by_cases hli : l = i
  · subst hli
    rw [Pi.single_eq_same, m5, if_pos rfl, one_div, inv_mul_cancel₀ (hpos l).ne']
  · rw [Pi.single_eq_of_ne hli, if_neg hli, mul_zero]

/-- `C166_nearest`: the octahedron with a loudspeaker twice as far away. -/
example : ∃ (h : Hull 6), mkHull Oct.qhull farPts 0 = .ok h ∧ ∀ l, farPts l ≠ 0 := by
  obtain ⟨h, hh, -⟩ := far_made
  refine ⟨h, hh, fun l h0 => ?_⟩
  have e0 := congrFun h0 0
  have e1 := congrFun h0 1
  have e2 := congrFun h0 2
  fin_cases l <;> simp [farPts] at e0 e1 e2

end Verif.Props
