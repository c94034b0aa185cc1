import Verif.Props.HullChecks
import Verif.Props.VbapEdges
import Verif.Props.RetainOutside
import Mathlib.Analysis.Convex.Gauge

/-!
C154: loudspeakers around the listener can play sources from everywhere.
-/

namespace Verif.Props
open Real Verif.Sph Verif.Utils Verif.Decoder

/-- What `scipy.spatial.ConvexHull` returns: proper triangles on the boundary of the convex hull, which cover it. -/
structure IsConvexHull {L : ℕ} (points : Fin L → Vec3) (faces : List (Face L)) : Prop where
  proper : ∀ f ∈ faces, AffineIndependent ℝ fun i => points (f i)
  support : ∀ f ∈ faces, ∃ (n : Vec3) (β : ℝ), n ≠ 0 ∧ (∀ i, n ⬝ᵥ points (f i) = β) ∧ ∀ l, n ⬝ᵥ points l ≤ β
  covers : ∀ x ∈ frontier (convexHull ℝ (Set.range points)), ∃ f ∈ faces, x ∈ convexHull ℝ (Set.range fun i => points (f i))

/-- Seen from inside, the corners of every triangle are linearly independent. -/
theorem hull_li {L : ℕ} {points : Fin L → Vec3} {faces : List (Face L)} (hh : IsConvexHull points faces)
    (hin : (0 : Vec3) ∈ interior (convexHull ℝ (Set.range points))) (f : Face L) (hf : f ∈ faces) : LinearIndependent ℝ fun i => points (f i) := by
  obtain ⟨n, β, hn, h1, h2⟩ := hh.support f hf
  have hK : ∀ x ∈ convexHull ℝ (Set.range points), n ⬝ᵥ x ≤ β := by
    intro x hx
    have hconv : Convex ℝ {x : Vec3 | n ⬝ᵥ x ≤ β} := by
      intro a ha b hb u v hu hv huv
      simp only [Set.mem_setOf_eq] at ha hb ⊢
      rw [dotProduct_add, dotProduct_smul, dotProduct_smul, smul_eq_mul, smul_eq_mul]
      calc u * n ⬝ᵥ a + v * n ⬝ᵥ b ≤ u * β + v * β := add_le_add (mul_le_mul_of_nonneg_left ha hu) (mul_le_mul_of_nonneg_left hb hv)
        _ = β := by rw [← add_mul, huv, one_mul]
    exact convexHull_min (by rintro _ ⟨l, rfl⟩; exact h2 l) hconv hx
  have hβ : 0 < β := by
    have hc : ContinuousAt (fun t : ℝ => t • n) 0 := by fun_prop
    have hmem : (fun t : ℝ => t • n) 0 ∈ interior (convexHull ℝ (Set.range points)) := by simpa using hin
    have hev : ∀ᶠ t in nhds (0 : ℝ), t • n ∈ interior (convexHull ℝ (Set.range points)) := hc.eventually (isOpen_interior.mem_nhds hmem)
    obtain ⟨δ, hδ, hb⟩ := Metric.eventually_nhds_iff.1 hev
    have := hK _ (interior_subset (hb (y := δ / 2) (by rw [Real.dist_eq, sub_zero, abs_of_pos (by positivity)]; linarith)))
    rw [dotProduct_smul, smul_eq_mul] at this
    have hnn : 0 < n ⬝ᵥ n := lt_of_le_of_ne (Finset.sum_nonneg fun i _ => mul_self_nonneg _) fun h => hn (dotProduct_self_eq_zero.1 h.symm)
    have : 0 < δ / 2 * n ⬝ᵥ n := by positivity
    linarith
  rw [Fintype.linearIndependent_iff]
  intro g hg
  have hsum : ∑ i, g i = 0 := by
    have := congrArg (fun x => n ⬝ᵥ x) hg
    simp only [dotProduct_sum, dotProduct_smul, h1, smul_eq_mul, dotProduct_zero] at this
    rw [← Finset.sum_mul] at this
    exact (mul_eq_zero.1 this).resolve_right hβ.ne'
  intro i
  exact (affineIndependent_iff.1 (hh.proper f hf)) Finset.univ g hsum hg i (Finset.mem_univ _)

/-- Seen from inside, every direction lies in some triangle. -/
theorem hull_cone {L : ℕ} {points : Fin L → Vec3} {faces : List (Face L)} (hh : IsConvexHull points faces)
    (hin : (0 : Vec3) ∈ interior (convexHull ℝ (Set.range points))) (s : Vec3) (hs : s ≠ 0) :
    ∃ f ∈ faces, ∃ c : Vec3, (∀ i, 0 ≤ c i) ∧ ∑ i, c i • points (f i) = s := by
  obtain ⟨K, hK⟩ : ∃ K, K = convexHull ℝ (Set.range points) := ⟨_, rfl⟩
  have hconv : Convex ℝ K := by rw [hK]; exact convex_convexHull ℝ _
  have hnhds : K ∈ nhds (0 : Vec3) := by rw [hK]; exact mem_interior_iff_mem_nhds.1 hin
  have hbdd : Bornology.IsBounded K := by rw [hK]; exact (isBounded_convexHull).2 (Set.finite_range points).isBounded
  have hpos : 0 < gauge K s := (gauge_pos (absorbent_nhds_zero hnhds) ((NormedSpace.isVonNBounded_iff ℝ).2 hbdd)).2 hs
  have hfr : (1 / gauge K s) • s ∈ frontier K := by
    rw [← gauge_eq_one_iff_mem_frontier hconv hnhds, gauge_smul_of_nonneg (by positivity), smul_eq_mul]
    field_simp
  rw [hK] at hfr
  obtain ⟨f, hf, hx⟩ := hh.covers _ hfr
  rw [convexHull_range_eq_exists_affineCombination] at hx
  obtain ⟨t, w, hw0, hw1, hwx⟩ := hx
  rw [Finset.affineCombination_eq_linear_combination _ _ _ hw1] at hwx
  rw [← hK] at hwx
  refine ⟨f, hf, fun i => gauge K s * (if i ∈ t then w i else 0), fun i => ?_, ?_⟩
  · refine mul_nonneg hpos.le ?_
    split_ifs with h
    · exact hw0 i h
    · exact le_rfl
  · have : ∑ i, (if i ∈ t then w i else 0) • points (f i) = ∑ i ∈ t, w i • points (f i) := by
      simp only [ite_smul, zero_smul]
      rw [Finset.sum_ite_mem, Finset.univ_inter]
    simp only [mul_smul]
    rw [← Finset.smul_sum, this, hwx, smul_smul, mul_one_div_cancel hpos.ne', one_smul]

open scoped Pointwise in
theorem hull_shift {L : ℕ} {points : Fin L → Vec3} {listener : Vec3} (hin : listener ∈ interior (convexHull ℝ (Set.range points))) :
    (0 : Vec3) ∈ interior (convexHull ℝ (Set.range fun l => points l - listener)) := by
  have h1 : (Set.range fun l => points l - listener) = -listener +ᵥ Set.range points := by
    ext x
    simp only [Set.mem_range, Set.mem_vadd_set, vadd_eq_add]
    constructor
    · rintro ⟨l, rfl⟩
      exact ⟨points l, ⟨l, rfl⟩, by abel⟩
    · rintro ⟨_, ⟨l, rfl⟩, rfl⟩
      exact ⟨l, by abel⟩
  rw [h1, convexHull_vadd, interior_vadd]
  exact Set.mem_vadd_set.2 ⟨listener, hin, by simp⟩

/-- The faces of a new setup are those returned by Qhull, with the corners in another order. -/
theorem hull_sorted {L : ℕ} {points : Fin L → Vec3} {faces : List (Face L)} (hh : IsConvexHull points faces) : IsConvexHull points (sortVertices faces) := by
  have hperm : ∀ f : Face L, Set.range (sortFace f) = Set.range f ∧ ∃ σ : Fin 3 → Fin 3, Function.Injective σ ∧ ∀ i, sortFace f i = f (σ i) := by
    intro f
    obtain ⟨g, hg, -, k, hk⟩ := (C37_sort [f]).2 0 f rfl
    obtain rfl : sortFace f = g := Option.some.inj hg
    have hinj : Function.Injective fun i : Fin 3 => k - i := fun a b hab => sub_right_injective hab
    refine ⟨?_, fun i => k - i, hinj, hk⟩
    have : sortFace f = f ∘ fun i => k - i := funext hk
    rw [this, Set.range_comp, (Finite.surjective_of_injective hinj).range_eq, Set.image_univ]
  refine ⟨?_, ?_, ?_⟩
  · intro f hf
    obtain ⟨f', hf', rfl⟩ := List.mem_map.1 hf
    obtain ⟨-, σ, hσ, he⟩ := hperm f'
    have := (hh.proper f' hf').comp_embedding ⟨σ, hσ⟩
    simp only [he]
    exact this
  · intro f hf
    obtain ⟨f', hf', rfl⟩ := List.mem_map.1 hf
    obtain ⟨-, σ, hσ, he⟩ := hperm f'
    obtain ⟨n, β, h1, h2, h3⟩ := hh.support f' hf'
    exact ⟨n, β, h1, fun i => by rw [he]; exact h2 _, h3⟩
  · intro x hx
    obtain ⟨f, hf, hxf⟩ := hh.covers x hx
    refine ⟨sortFace f, List.mem_map.2 ⟨f, hf, rfl⟩, ?_⟩
    have e : (Set.range fun i => points (sortFace f i)) = Set.range fun i => points (f i) := by
      rw [show (fun i => points (sortFace f i)) = points ∘ sortFace f from rfl, show (fun i => points (f i)) = points ∘ f from rfl,
        Set.range_comp, Set.range_comp, (hperm f).1]
    rw [e]
    exact hxf

/-- A layout around the listener, all of whose faces are valid (as `C98_central_partial` says). -/
theorem surround_faces {L : ℕ} (hL : 0 < L) (qhull : (L : ℕ) → (Fin L → Vec3) → Py (List (Face L))) (points : Fin L → Vec3) (listener : Vec3)
    (hq : ∀ faces, qhull L (fun l => points l - listener) = .ok faces → IsConvexHull (fun l => points l - listener) faces)
    (hin : listener ∈ interior (convexHull ℝ (Set.range points))) (h : Hull L) (hh : mkHull qhull points listener = .ok h)
    (hc : ∀ f ∈ h.simplices, norm3 (listener - meanPoint points) ≤ norm3 (faceCentre points f - meanPoint points)) :
    IsConvexHull h.points h.valid ∧ (0 : Vec3) ∈ interior (convexHull ℝ (Set.range h.points)) ∧ h.invBase = none ∧ ∀ l, h.d l = norm3 (h.points l) := by
  have hv := C98_central_partial hL qhull points listener h hh hc
  unfold mkHull at hh
  simp only at hh
  cases hf : qhull L fun l => points l - listener with
  | error e => rw [hf] at hh; cases hh
  | ok faces =>
    rw [hf] at hh
    obtain rfl := Except.ok.inj hh
    have hs := hull_sorted (hq faces hf)
    refine ⟨⟨fun f hf => hs.proper f ((hv f).1 hf), fun f hf => hs.support f ((hv f).1 hf), fun x hx => ?_⟩, hull_shift hin, rfl, fun l => ?_⟩
    · obtain ⟨f, hf, hxf⟩ := hs.covers x hx
      exact ⟨f, (hv f).2 hf, hxf⟩
    · show (cart2sph _ _ _ false false).2.2 = norm3 _
      rw [Oct.cart2sph_radius]
      unfold norm3
      rw [dotProduct, Fin.sum_univ_three]
      congr 1
      ring

/-- **C154** A new setup with loudspeakers on all sides of the listener, all of whose faces are valid, plays sources from everywhere: `vbap` finds a
triangle for every source and renders its direction. -/
theorem C154_everywhere {L : ℕ} (hL : 0 < L) (qhull : (L : ℕ) → (Fin L → Vec3) → Py (List (Face L))) (points : Fin L → Vec3) (listener : Vec3)
    (hq : ∀ faces, qhull L (fun l => points l - listener) = .ok faces → IsConvexHull (fun l => points l - listener) faces)
    (hin : listener ∈ interior (convexHull ℝ (Set.range points))) (h : Hull L) (hh : mkHull qhull points listener = .ok h)
    (hc : ∀ f ∈ h.simplices, norm3 (listener - meanPoint points) ≤ norm3 (faceCentre points f - meanPoint points))
    (lstsq : Mat3 → Mat3) (hl : LstsqSpec lstsq) {p : ℝ} (hp : 0 < p) (src : List Vec3) (hsrc : ∀ s ∈ src, s ≠ 0) :
    ∃ rows, (vbapHull lstsq p src none h).1 = .ok rows ∧ rows.length = src.length ∧ ∀ (i : ℕ) (s : Vec3) (row : Fin L → ℝ), src[i]? = some s → rows[i]? = some row →
      ∃ g : Fin L → ℝ, row = (fun l => h.d l ^ h.a * g l) ∧ npNorm p g = 1 ∧ (∀ l, g l > -10e-6) ∧ ∃ c : ℝ, 0 < c ∧ ∑ l, g l • (points l - listener) = c • s := by
  obtain ⟨h1, h2, h3, h4⟩ := surround_faces hL qhull points listener hq hin h hh hc
  have hcache : CacheOk lstsq h := by intro b hb; rw [h3] at hb; cases hb
  have hli := hull_li h1 h2
  have hinj : ∀ f ∈ h.valid, Function.Injective f := fun f hf a b hab => (hli f hf).injective (by simp only [hab])
  have hpts : h.points = fun l => points l - listener := by
    unfold mkHull at hh
    simp only at hh
    cases hf : qhull L fun l => points l - listener with
    | error e => rw [hf] at hh; cases hh
    | ok faces =>
      rw [hf] at hh
      obtain rfl := Except.ok.inj hh
      rfl
  obtain ⟨rows, e1, e2, e3⟩ := C29_vbap lstsq hl hp h hcache hinj src
  obtain ⟨rows', e4, -, e5⟩ := C30_each lstsq hp h hcache hinj src
  rw [e1] at e4
  obtain rfl := Except.ok.inj e4
  refine ⟨rows, e1, e2, fun i s row hi hr => ?_⟩
  obtain ⟨g, hg, hcase⟩ := e3 i s row hi hr
  refine ⟨g, hg, ?_⟩
  rcases hcase with rfl | ⟨f, hf, hren⟩
  · exfalso
    obtain ⟨row', e6, e7⟩ := e5 i s hi
    rw [hr] at e7
    obtain rfl := Option.some.inj e7
    have hs := hsrc s (List.mem_of_getElem? hi)
    obtain ⟨f, hf, c, hc0, hcs⟩ := hull_cone h1 h2 s hs
    obtain ⟨row'', e8, e9⟩ := C30_cone lstsq hl hp h hcache hinj hli h4 s hs f hf c hc0 hcs
    rw [e6] at e8
    obtain rfl := (List.cons.inj (Except.ok.inj e8)).1
    exact e9 (by rw [hg]; funext l; simp)
  · obtain ⟨c, hc, he⟩ := hren.direction (hli f hf)
    rw [hpts] at he
    exact ⟨hren.norm, hren.positive, c, hc, he⟩

/-- **C154** On a hull around the listener, with the imaginary loudspeaker if there is one, `allrap2` plays every source with the same energy. -/
theorem C154_allrap2 {L n t : ℕ} (lstsq : Mat3 → Mat3) (hl : LstsqSpec lstsq) (src : Fin n → Vec3) (s : Setup L) (am : Ambi L) (k : Kernel)
    (ha : s.ambi = some am) (hk : s.kernel = some k) (No : Option ℕ) (N : ℕ) (hN : OrderOf s No N) (hc : CacheOk lstsq am.hull)
    (hh : IsConvexHull am.hull.points am.hull.valid) (hin : (0 : Vec3) ∈ interior (convexHull ℝ (Set.range am.hull.points)))
    (hdist : ∀ l, am.hull.d l = norm3 (am.hull.points l)) (hd : ∀ l ∈ realIdx am, am.hull.d l = 1) (hpos : ∀ j, k.points j ≠ 0)
    (hdes : IsTDesign t (fun j => (dirOf (k.points j)).1) fun j => (dirOf (k.points j)).2) (ht : 2 * N ≤ t) :
    ∃ G, (allrap2 lstsq src No s).1 = .ok G ∧ ∀ i, (∀ x ∈ G i, 0 ≤ x) ∧ ((G i).map (· ^ 2)).sum ≤ allrap2Energy N ∧
      (am.imaginary = none → ((G i).map (· ^ 2)).sum = allrap2Energy N) := by
  have hli := hull_li hh hin
  have hinj : ∀ f ∈ am.hull.valid, Function.Injective f := fun f hf a b hab => (hli f hf).injective (by simp only [hab])
  refine C102_energy lstsq hl src s am k ha hk No N hN hc hinj hd hdes ht fun j => ?_
  obtain ⟨f, hf, c, hc0, hcs⟩ := hull_cone hh hin (k.points j) (hpos j)
  exact C30_cone lstsq hl (by norm_num) am.hull hc hinj hli hdist _ (hpos j) f hf c hc0 hcs

/-! ### The octahedron -/

theorem oct_ball (x : Vec3) (hx : |x 0| + |x 1| + |x 2| ≤ 1) : x ∈ convexHull ℝ (Set.range Oct.pts) := by
  obtain ⟨r, hr⟩ : ∃ r, r = (1 - (|x 0| + |x 1| + |x 2|)) / 6 := ⟨_, rfl⟩
  have hr0 : 0 ≤ r := by rw [hr]; linarith
  refine mem_convexHull_of_exists_fintype (fun l => ![(|x 0| + x 0) / 2 + r, (|x 0| - x 0) / 2 + r, (|x 1| + x 1) / 2 + r, (|x 1| - x 1) / 2 + r,
    (|x 2| + x 2) / 2 + r, (|x 2| - x 2) / 2 + r] l) Oct.pts (fun l => ?_) ?_ (fun l => ⟨l, rfl⟩) ?_
  · have h0 := neg_abs_le (x 0)
    have h0' := le_abs_self (x 0)
    have h1 := neg_abs_le (x 1)
    have h1' := le_abs_self (x 1)
    have h2 := neg_abs_le (x 2)
    have h2' := le_abs_self (x 2)
    fin_cases l <;> simp <;> linarith
  · rw [Fin.sum_univ_six]
    simp
    linarith
  · rw [Fin.sum_univ_six]
    ext c
    fin_cases c <;> simp [Oct.pts] <;> ring

theorem oct_hull_le (x : Vec3) (hx : x ∈ convexHull ℝ (Set.range Oct.pts)) : |x 0| + |x 1| + |x 2| ≤ 1 := by
  have hconv : Convex ℝ {x : Vec3 | |x 0| + |x 1| + |x 2| ≤ 1} := by
    intro a ha b hb u v hu hv huv
    simp only [Set.mem_setOf_eq] at ha hb ⊢
    have key : ∀ c : Fin 3, |(u • a + v • b) c| ≤ u * |a c| + v * |b c| := by
      intro c
      refine (abs_add_le _ _).trans ?_
      simp only [Pi.smul_apply, smul_eq_mul, abs_mul, abs_of_nonneg hu, abs_of_nonneg hv]
      exact le_rfl
    calc |(u • a + v • b) 0| + |(u • a + v • b) 1| + |(u • a + v • b) 2| ≤ u * (|a 0| + |a 1| + |a 2|) + v * (|b 0| + |b 1| + |b 2|) := by
          linarith [key 0, key 1, key 2]
      _ ≤ u * 1 + v * 1 := add_le_add (mul_le_mul_of_nonneg_left ha hu) (mul_le_mul_of_nonneg_left hb hv)
      _ = 1 := by linarith
  refine convexHull_min ?_ hconv hx
  rintro _ ⟨l, rfl⟩
  fin_cases l <;> simp [Oct.pts]

theorem oct_interior (x : Vec3) (hx : |x 0| + |x 1| + |x 2| < 1) : x ∈ interior (convexHull ℝ (Set.range Oct.pts)) := by
  refine mem_interior.2 ⟨{x : Vec3 | |x 0| + |x 1| + |x 2| < 1}, fun y hy => oct_ball y (le_of_lt hy), isOpen_lt (by fun_prop) continuous_const, hx⟩

theorem oct_isHull : IsConvexHull Oct.pts Oct.rawFaces := by
  have hmem : ∀ f ∈ Oct.rawFaces, ∃ a b c : ℝ, (a = 1 ∨ a = -1) ∧ (b = 1 ∨ b = -1) ∧ (c = 1 ∨ c = -1) ∧
      Oct.pts (f 0) = ![a, 0, 0] ∧ Oct.pts (f 2) = ![0, b, 0] ∧ Oct.pts (f 1) = ![0, 0, c] := by
    intro f hf
    simp only [Oct.rawFaces, List.mem_cons, List.not_mem_nil, or_false] at hf
    rcases hf with rfl | rfl | rfl | rfl | rfl | rfl | rfl | rfl
    · exact ⟨1, 1, 1, .inl rfl, .inl rfl, .inl rfl, rfl, rfl, rfl⟩
    · exact ⟨1, 1, -1, .inl rfl, .inl rfl, .inr rfl, rfl, rfl, rfl⟩
    · exact ⟨1, -1, 1, .inl rfl, .inr rfl, .inl rfl, rfl, rfl, rfl⟩
    · exact ⟨1, -1, -1, .inl rfl, .inr rfl, .inr rfl, rfl, rfl, rfl⟩
    · exact ⟨-1, 1, 1, .inr rfl, .inl rfl, .inl rfl, rfl, rfl, rfl⟩
    · exact ⟨-1, 1, -1, .inr rfl, .inl rfl, .inr rfl, rfl, rfl, rfl⟩
    · exact ⟨-1, -1, 1, .inr rfl, .inr rfl, .inl rfl, rfl, rfl, rfl⟩
    · exact ⟨-1, -1, -1, .inr rfl, .inr rfl, .inr rfl, rfl, rfl, rfl⟩
  have hex : ∀ a b c : ℝ, (a = 1 ∨ a = -1) → (b = 1 ∨ b = -1) → (c = 1 ∨ c = -1) → ∃ f ∈ Oct.rawFaces,
      Oct.pts (f 0) = ![a, 0, 0] ∧ Oct.pts (f 2) = ![0, b, 0] ∧ Oct.pts (f 1) = ![0, 0, c] := by
    rintro a b c (rfl | rfl) (rfl | rfl) (rfl | rfl)
    · exact ⟨![0, 4, 2], by decide, rfl, rfl, rfl⟩
    · exact ⟨![0, 5, 2], by decide, rfl, rfl, rfl⟩
    · exact ⟨![0, 4, 3], by decide, rfl, rfl, rfl⟩
    · exact ⟨![0, 5, 3], by decide, rfl, rfl, rfl⟩
    · exact ⟨![1, 4, 2], by decide, rfl, rfl, rfl⟩
    · exact ⟨![1, 5, 2], by decide, rfl, rfl, rfl⟩
    · exact ⟨![1, 4, 3], by decide, rfl, rfl, rfl⟩
    · exact ⟨![1, 5, 3], by decide, rfl, rfl, rfl⟩
  refine ⟨fun f hf => ?_, fun f hf => ?_, fun x hx => ?_⟩
  · obtain ⟨a, b, c, ha, hb, hc, h0, h2, h1⟩ := hmem f hf
    refine LinearIndependent.affineIndependent (k := ℝ) (V := Vec3) ?_
    rw [Fintype.linearIndependent_iff]
    intro g hg i
    rw [Fin.sum_univ_three, h0, h1, h2] at hg
    have e0 := congrFun hg 0
    have e1 := congrFun hg 1
    have e2 := congrFun hg 2
    simp at e0 e1 e2
    have hne : ∀ y : ℝ, (y = 1 ∨ y = -1) → y ≠ 0 := by rintro y (rfl | rfl) <;> norm_num
    fin_cases i
    · exact e0.resolve_right (hne a ha)
    · exact e2.resolve_right (hne c hc)
    · exact e1.resolve_right (hne b hb)
  · obtain ⟨a, b, c, ha, hb, hc, h0, h2, h1⟩ := hmem f hf
    have hsq : ∀ y : ℝ, (y = 1 ∨ y = -1) → y * y = 1 := by rintro y (rfl | rfl) <;> norm_num
    have hle : ∀ y : ℝ, (y = 1 ∨ y = -1) → y ≤ 1 ∧ -y ≤ 1 := by rintro y (rfl | rfl) <;> norm_num
    refine ⟨![a, b, c], 1, fun h => ?_, fun i => ?_, fun l => ?_⟩
    · have : a = 0 := congrFun h 0
      have := hsq a ha
      simp_all
    · fin_cases i
      · show _ ⬝ᵥ Oct.pts (f 0) = 1
        rw [h0, dotProduct, Fin.sum_univ_three]; simp [hsq a ha]
      · show _ ⬝ᵥ Oct.pts (f 1) = 1
        rw [h1, dotProduct, Fin.sum_univ_three]; simp [hsq c hc]
      · show _ ⬝ᵥ Oct.pts (f 2) = 1
        rw [h2, dotProduct, Fin.sum_univ_three]; simp [hsq b hb]
    · have := hle a ha
      have := hle b hb
      have := hle c hc
      rw [dotProduct, Fin.sum_univ_three]
      fin_cases l <;> simp [Oct.pts] <;> linarith
  · have hcl : IsClosed (convexHull ℝ (Set.range Oct.pts)) := Set.Finite.isClosed_convexHull ℝ (Set.finite_range Oct.pts)
    have hxK := hcl.frontier_subset hx
    have hle := oct_hull_le x hxK
    have hone : |x 0| + |x 1| + |x 2| = 1 := by
      refine le_antisymm hle (not_lt.1 fun h => ?_)
      exact hx.2 (oct_interior x h)
    have hsign : ∀ y : ℝ, ∃ a : ℝ, (a = 1 ∨ a = -1) ∧ |y| * a = y := by
      intro y
      rcases le_total 0 y with h | h
      · exact ⟨1, .inl rfl, by rw [abs_of_nonneg h, mul_one]⟩
      · exact ⟨-1, .inr rfl, by rw [abs_of_nonpos h]; ring⟩
    obtain ⟨a, ha, ea⟩ := hsign (x 0)
    obtain ⟨b, hb, eb⟩ := hsign (x 1)
    obtain ⟨c, hc, ec⟩ := hsign (x 2)
    obtain ⟨f, hf, h0, h2, h1⟩ := hex a b c ha hb hc
    refine ⟨f, hf, mem_convexHull_of_exists_fintype (fun i => ![|x 0|, |x 2|, |x 1|] i) (fun i => Oct.pts (f i)) (fun i => ?_) ?_ (fun i => ⟨i, rfl⟩) ?_⟩
    · fin_cases i <;> exact abs_nonneg _
    · rw [Fin.sum_univ_three]
      show |x 0| + |x 2| + |x 1| = 1
      linarith
    · rw [Fin.sum_univ_three]
      show |x 0| • Oct.pts (f 0) + |x 2| • Oct.pts (f 1) + |x 1| • Oct.pts (f 2) = x
      rw [h0, h1, h2]
      ext i
      fin_cases i <;> simp [ea, eb, ec]

/-- The octahedron around the listener. -/
example (src : List Vec3) (hsrc : ∀ s ∈ src, s ≠ 0) : ∃ lstsq : Mat3 → Mat3, ∃ rows, (vbapHull lstsq 2 src none Oct.hull).1 = .ok rows ∧
    ∀ (i : ℕ) (s : Vec3) (row : Fin 6 → ℝ), src[i]? = some s → rows[i]? = some row → ∃ c : ℝ, 0 < c ∧ ∑ l, row l • Oct.pts l = c • s := by
  obtain ⟨lstsq, hl⟩ := exists_lstsq3
  obtain ⟨rows, h1, _, h2⟩ := C154_everywhere (L := 6) (by norm_num) Oct.qhull Oct.pts 0 (fun faces hf => by
      rw [Oct.sub_zero_pts] at hf ⊢
      have : faces = Oct.rawFaces := by
        unfold Oct.qhull at hf
        rw [dif_pos rfl] at hf
        rw [← Except.ok.inj hf]
        exact List.map_id _
      rw [this]
      exact oct_isHull) (oct_interior 0 (by simp)) Oct.hull Oct.mkHull_eq (fun f _ => by
      have : meanPoint Oct.pts = 0 := by
        unfold meanPoint
        rw [Fin.sum_univ_six]
        ext c
        fin_cases c <;> simp [Oct.pts]
      rw [this, sub_zero]
      have : norm3 (0 : Vec3) = 0 := by simp [norm3]
      rw [this]
      exact Real.sqrt_nonneg _) lstsq hl (p := 2) (by norm_num) src hsrc
  refine ⟨lstsq, rows, h1, fun i s row hi hr => ?_⟩
  obtain ⟨g, hg, -, -, c, hc, he⟩ := h2 i s row hi hr
  refine ⟨c, hc, ?_⟩
  rw [← he]
  refine Finset.sum_congr rfl fun l _ => ?_
  rw [hg, sub_zero]
  show ((1 : ℝ) ^ (1 : ℝ) * g l) • _ = _
  rw [one_rpow, one_mul]

/-- `C154_allrap2` on the octahedron with the corners of a cube as kernel. -/
example : ∃ (lstsq : Mat3 → Mat3) (s : Setup 6), ∀ src : Fin 4 → Vec3, ∃ G, (allrap2 lstsq src (some 1) s).1 = .ok G ∧
    ∀ i, ((G i).map (· ^ 2)).sum = allrap2Energy 1 := by
  obtain ⟨lstsq, hl⟩ := exists_lstsq3
  obtain ⟨azi, zen, hd⟩ := cube_design
  have hraw : Oct.faces = sortVertices Oct.rawFaces := by decide +kernel
  refine ⟨lstsq, ⟨Oct.hull, some ⟨0, Oct.hull, none⟩, some ⟨8, fun l => dirVec (azi l) (zen l), 1⟩⟩, fun src => ?_⟩
  obtain ⟨G, h1, h2⟩ := C154_allrap2 (L := 6) (t := 3) lstsq hl src
    ⟨Oct.hull, some ⟨0, Oct.hull, none⟩, some ⟨8, fun l => dirVec (azi l) (zen l), 1⟩⟩ ⟨0, Oct.hull, none⟩
    ⟨8, fun l => dirVec (azi l) (zen l), 1⟩ rfl rfl (some 1) 1 (.inl rfl) (oct_cache lstsq)
    (by show IsConvexHull Oct.pts Oct.faces; rw [hraw]; exact hull_sorted oct_isHull) (oct_interior 0 (by simp)) (fun l => (Oct.norm_pts l).symm) (fun _ _ => rfl)
    (fun j h0 => by
      have h : (dirVec (azi j) (zen j)) ⬝ᵥ dirVec (azi j) (zen j) = 1 := by
        rw [dotProduct, Fin.sum_univ_three]
        simp only [dirVec, Matrix.cons_val_zero, Matrix.cons_val_one, Matrix.cons_val]
        nlinarith [Real.sin_sq_add_cos_sq (azi j), Real.sin_sq_add_cos_sq (zen j)]
      change dirVec (azi j) (zen j) = 0 at h0
      rw [h0] at h
      simp at h)
    (design_points hd) (by norm_num)
  exact ⟨G, h1, fun i => (h2 i).2.2 rfl⟩

end Verif.Props
