import Verif.Props.VbapHistory

/-!
C153: VBAP on corners and edges of the triangles; the gains follow a moving source without jumps larger than the tolerance.
-/

namespace Verif.Props
open Real Verif.Sph Verif.Utils Verif.Decoder

/-! ### One source -/

/-- The face taken by `vbap` and its gains, in terms of coordinates of the source. -/
theorem vbap_single {L : ℕ} (lstsq : Mat3 → Mat3) (hl : LstsqSpec lstsq) {p : ℝ} (hp : 0 < p) (h : Hull L) (hc : CacheOk lstsq h)
    (hinj : ∀ f ∈ h.valid, Function.Injective f) (hli : ∀ f ∈ h.valid, LinearIndependent ℝ fun i => h.points (f i)) (s : Vec3) :
    ((∀ f ∈ h.valid, ¬ Inside p h.points f s) ∧ (vbapHull lstsq p [s] none h).1 = .ok [0]) ∨
    ∃ (k : ℕ) (f : Face L) (g : Fin L → ℝ), h.valid[k]? = some f ∧ Inside p h.points f s ∧
      (∀ (j : ℕ) (f' : Face L), j < k → h.valid[j]? = some f' → ¬ Inside p h.points f' s) ∧
      (vbapHull lstsq p [s] none h).1 = .ok [fun l => h.d l ^ h.a * g l] ∧ (∀ l, (∀ i, f i ≠ l) → g l = 0) ∧
      ∀ c : Vec3, ∑ i, c i • h.points (f i) = s → ∀ i, g (f i) = c i / npNorm p c := by
  have hrun : ∀ g, vbapRow h.valid (invertTriplets lstsq h.valid h.points) p s = .ok g →
      (vbapHull lstsq p [s] none h).1 = .ok [fun l => h.d l ^ h.a * g l] := by
    intro g hg
    unfold vbapHull vbapSerial
    simp only [Option.getD_none, vbase_ok hc, List.mapM_cons, List.mapM_nil, hg]
    rfl
  rcases row_cases lstsq hp h.points h.valid hinj s with ⟨h1, h2⟩ | ⟨k, f, g, hf, h1, h2, h3, h4, _, _, h7⟩
  · left
    refine ⟨fun f hf => ?_, ?_⟩
    · rw [inside_iff hl p h.points f (hli f hf), h2 f hf]; simp
    · rw [hrun 0 h1]
      congr 2
      funext l
      simp
  · right
    have hfm := List.mem_of_getElem? hf
    refine ⟨k, f, g, hf, (inside_iff hl p h.points f (hli f hfm) s).2 h2, ?_, hrun g h1, ?_, ?_⟩
    · intro j f' hj hf'
      rw [inside_iff hl p h.points f' (hli f' (List.mem_of_getElem? hf')), h3 j f' hj hf']; simp
    · intro l hl'
      by_contra hg
      obtain ⟨i, hi⟩ := h4 l hg
      exact hl' i hi
    · intro c hcs i
      rw [h7 i, (proj_coords hl h.points f (hli f hfm) s c).2 hcs]

/-- Coordinates in terms of all loudspeakers are coordinates in a face with all that count. -/
theorem coords_face {L : ℕ} (points : Fin L → Vec3) (f : Face L) (hf : Function.Injective f) (c : Fin L → ℝ) (hs : ∀ l, c l ≠ 0 → ∃ i, f i = l) :
    ∑ i, c (f i) • points (f i) = ∑ l, c l • points l :=
  (sum_face f hf (fun l => c l • points l) fun l hl => by
    by_cases h0 : c l = 0
    · rw [h0, zero_smul]
    · obtain ⟨i, hi⟩ := hs l h0
      exact absurd hi (hl i)).symm

theorem norm_coords {L : ℕ} {p : ℝ} (hp : 0 < p) (f : Face L) (hf : Function.Injective f) (c : Fin L → ℝ) (hs : ∀ l, c l ≠ 0 → ∃ i, f i = l) :
    npNorm p (fun i => c (f i)) = npNorm p c :=
  (npNorm_face hp f hf c fun l hl => by
    by_contra h0
    obtain ⟨i, hi⟩ := hs l h0
    exact hl i hi).symm

theorem inside_cone {L : ℕ} {p : ℝ} (hp : 0 < p) (points : Fin L → Vec3) (f : Face L) (hf : Function.Injective f) (c : Fin L → ℝ) (h0 : ∀ l, 0 ≤ c l)
    (hne : c ≠ 0) (hs : ∀ l, c l ≠ 0 → ∃ i, f i = l) : Inside p points f (∑ l, c l • points l) := by
  refine ⟨fun i => c (f i), coords_face points f hf c hs, ?_, fun i => ?_⟩
  · rw [norm_coords hp f hf c hs]
    exact fun h => hne ((npNorm_eq_zero hp c).1 h)
  · have : 0 ≤ c (f i) / npNorm p (fun i => c (f i)) := div_nonneg (h0 _) (npNorm_nonneg _ _)
    linarith

/-- **C153** A source between some corners of a triangle (inside it, on an edge or at a corner) is rendered by these loudspeakers alone, with its
coordinates as gains, whichever of the triangles with these corners is found first. -/
theorem C153_corners {L : ℕ} (lstsq : Mat3 → Mat3) (hl : LstsqSpec lstsq) {p : ℝ} (hp : 0 < p) (h : Hull L) (hc : CacheOk lstsq h)
    (hinj : ∀ f ∈ h.valid, Function.Injective f) (hli : ∀ f ∈ h.valid, LinearIndependent ℝ fun i => h.points (f i))
    (c : Fin L → ℝ) (h0 : ∀ l, 0 ≤ c l) (hne : c ≠ 0) (f₀ : Face L) (hf₀ : f₀ ∈ h.valid) (hs₀ : ∀ l, c l ≠ 0 → ∃ i, f₀ i = l)
    (hin : ∀ f ∈ h.valid, Inside p h.points f (∑ l, c l • h.points l) → ∀ l, c l ≠ 0 → ∃ i, f i = l) :
    (vbapHull lstsq p [∑ l, c l • h.points l] none h).1 = .ok [fun l => h.d l ^ h.a * (c l / npNorm p c)] := by
  rcases vbap_single lstsq hl hp h hc hinj hli (∑ l, c l • h.points l) with ⟨h1, _⟩ | ⟨k, f, g, hf, h1, _, h2, h3, h4⟩
  · exact absurd (inside_cone hp h.points f₀ (hinj f₀ hf₀) c h0 hne hs₀) (h1 f₀ hf₀)
  · have hfm := List.mem_of_getElem? hf
    have hs := hin f hfm h1
    rw [h2]
    congr 2
    funext l
    congr 1
    by_cases hlf : ∃ i, f i = l
    · obtain ⟨i, rfl⟩ := hlf
      rw [h4 (fun i => c (f i)) (coords_face h.points f (hinj f hfm) c hs) i, norm_coords hp f (hinj f hfm) c hs]
    · have hcl : c l = 0 := by
        by_contra hcl
        exact hlf (hs l hcl)
      rw [h3 l fun i hi => hlf ⟨i, hi⟩, hcl, zero_div]

/-- **C153** A source in the direction of a loudspeaker is played by this loudspeaker alone. -/
theorem C153_loudspeaker {L : ℕ} (lstsq : Mat3 → Mat3) (hl : LstsqSpec lstsq) {p : ℝ} (hp : 0 < p) (h : Hull L) (hc : CacheOk lstsq h)
    (hinj : ∀ f ∈ h.valid, Function.Injective f) (hli : ∀ f ∈ h.valid, LinearIndependent ℝ fun i => h.points (f i))
    (l : Fin L) (f₀ : Face L) (hf₀ : f₀ ∈ h.valid) (hl₀ : ∃ i, f₀ i = l) (r : ℝ) (hr : 0 < r)
    (hin : ∀ f ∈ h.valid, Inside p h.points f (r • h.points l) → ∃ i, f i = l) :
    (vbapHull lstsq p [r • h.points l] none h).1 = .ok [Pi.single l (h.d l ^ h.a)] := by
  have hsum : ∑ l', (Pi.single l r : Fin L → ℝ) l' • h.points l' = r • h.points l := by
    rw [Finset.sum_eq_single l]
    · rw [Pi.single_eq_same]
    · intro b _ hb
      rw [Pi.single_eq_of_ne hb, zero_smul]
    · intro hl'
      exact absurd (Finset.mem_univ _) hl'
  have hsup : ∀ l', (Pi.single l r : Fin L → ℝ) l' ≠ 0 → l' = l := by
    intro l' h'
    by_contra hne
    exact h' (Pi.single_eq_of_ne hne _)
  have hnorm : npNorm p (Pi.single l r : Fin L → ℝ) = r := by
    unfold npNorm
    rw [Finset.sum_eq_single l]
    · rw [Pi.single_eq_same, abs_of_pos hr, ← rpow_mul hr.le, mul_one_div_cancel hp.ne', rpow_one]
    · intro b _ hb
      rw [Pi.single_eq_of_ne hb, abs_zero, zero_rpow hp.ne']
    · intro hl'
      exact absurd (Finset.mem_univ _) hl'
  have key := C153_corners lstsq hl hp h hc hinj hli (Pi.single l r) (fun l' => by
      by_cases hll : l' = l
      · subst hll; rw [Pi.single_eq_same]; exact hr.le
      · rw [Pi.single_eq_of_ne hll]) (fun h0 => hr.ne' (by have := congrFun h0 l; rwa [Pi.single_eq_same] at this)) f₀ hf₀
    (fun l' h' => by rw [hsup l' h']; exact hl₀) (fun f hf hi l' h' => by rw [hsup l' h']; rw [hsum] at hi; exact hin f hf hi)
  rw [hsum] at key
  rw [key, hnorm]
  congr 2
  funext l'
  by_cases hll : l' = l
  · subst hll
    rw [Pi.single_eq_same, Pi.single_eq_same, div_self hr.ne', mul_one]
  · rw [Pi.single_eq_of_ne hll, Pi.single_eq_of_ne hll, zero_div, mul_zero]

/-! ### Moving sources -/

theorem npNorm_continuous {p : ℝ} (hp : 0 < p) {n : ℕ} : Continuous fun v : Fin n → ℝ => npNorm p v := by
  unfold npNorm
  refine Continuous.rpow_const (continuous_finsetSum _ fun i _ => Continuous.rpow_const (continuous_abs.comp (continuous_apply i)) fun _ => .inr hp.le)
    fun _ => .inr (by positivity)

/-- The gains of a face, as a function of the source, are continuous wherever they are defined. -/
theorem faceGain_continuous {p : ℝ} (hp : 0 < p) (B : Mat3) (s : Vec3) (hn : npNorm p (B.mulVec s) ≠ 0) (i : Fin 3) :
    ContinuousAt (fun s' : Vec3 => B.mulVec s' i / npNorm p (B.mulVec s')) s := by
  have h1 : Continuous fun s' : Vec3 => B.mulVec s' := Continuous.matrix_mulVec continuous_const continuous_id
  exact ContinuousAt.div ((continuous_apply i).comp h1).continuousAt ((npNorm_continuous hp).comp h1).continuousAt hn

/-- **C153** The gains follow the source continuously: at a source between corners of a triangle, inside, on an edge or at a corner, unless another
triangle without these corners contains it up to the tolerance, gains of sources close by are close. -/
theorem C153_continuous {L : ℕ} (lstsq : Mat3 → Mat3) (hl : LstsqSpec lstsq) {p : ℝ} (hp : 0 < p) (h : Hull L) (hc : CacheOk lstsq h)
    (hinj : ∀ f ∈ h.valid, Function.Injective f) (hli : ∀ f ∈ h.valid, LinearIndependent ℝ fun i => h.points (f i))
    (c : Fin L → ℝ) (h0 : ∀ l, 0 ≤ c l) (hne : c ≠ 0) (f₀ : Face L) (hf₀ : f₀ ∈ h.valid) (hs₀ : ∀ l, c l ≠ 0 → ∃ i, f₀ i = l)
    (hin : ∀ f ∈ h.valid, ∀ b : Vec3, ∑ i, b i • h.points (f i) = ∑ l, c l • h.points l → (∀ i, b i / npNorm p b ≥ -10e-6) →
      ∀ l, c l ≠ 0 → ∃ i, f i = l) :
    ∃ row, (vbapHull lstsq p [∑ l, c l • h.points l] none h).1 = .ok [row] ∧ ∀ ε > 0, ∃ δ > 0, ∀ s' : Vec3,
      (∀ x, |s' x - (∑ l, c l • h.points l) x| < δ) → ∃ row', (vbapHull lstsq p [s'] none h).1 = .ok [row'] ∧ ∀ l, |row' l - row l| < ε := by
  obtain ⟨s, hs⟩ : ∃ s, s = ∑ l, c l • h.points l := ⟨_, rfl⟩
  refine ⟨_, C153_corners lstsq hl hp h hc hinj hli c h0 hne f₀ hf₀ hs₀ (fun f hf ⟨b, hb, _, hb'⟩ => hin f hf b hb fun i => (hb' i).le), fun ε hε => ?_⟩
  rw [← hs] at hin ⊢
  obtain ⟨M, hM⟩ : ∃ M, M = ∑ l, |h.d l ^ h.a| + 1 := ⟨_, rfl⟩
  have hMpos : 0 < M := by rw [hM]; have : 0 ≤ ∑ l, |h.d l ^ h.a| := Finset.sum_nonneg fun _ _ => abs_nonneg _; linarith
  have hsne : ∀ f ∈ h.valid, npNorm p ((lstsq (baseMat h.points f)).transpose.mulVec s) ≠ 0 := by
    intro f hf h'
    have hz := (npNorm_eq_zero hp _).1 h'
    have hs0 := (proj_coords hl h.points f (hli f hf) s 0).1 hz
    simp only [Pi.zero_apply, zero_smul, Finset.sum_const_zero] at hs0
    have e := (proj_coords hl h.points f₀ (hli f₀ hf₀) s (fun i => c (f₀ i))).2 (by rw [hs]; exact coords_face h.points f₀ (hinj f₀ hf₀) c hs₀)
    rw [← hs0, Matrix.mulVec_zero] at e
    apply hne
    funext l
    by_contra hcl
    obtain ⟨i, rfl⟩ := hs₀ l hcl
    exact hcl (congrFun e i).symm
  -- near the source every face either is not taken or has gains close to those of the source
  have hface : ∀ f ∈ h.valid, ∀ᶠ s' in nhds s, Inside p h.points f s' → (∀ l, c l ≠ 0 → ∃ i, f i = l) ∧
      ∀ b : Vec3, ∑ i, b i • h.points (f i) = s' → ∀ i, |b i / npNorm p b - c (f i) / npNorm p c| < ε / M := by
    intro f hf
    have hcont := faceGain_continuous hp (lstsq (baseMat h.points f)).transpose s (hsne f hf)
    by_cases hsup : ∀ l, c l ≠ 0 → ∃ i, f i = l
    · have hval : ∀ i, (lstsq (baseMat h.points f)).transpose.mulVec s i / npNorm p ((lstsq (baseMat h.points f)).transpose.mulVec s)
          = c (f i) / npNorm p c := by
        intro i
        rw [(proj_coords hl h.points f (hli f hf) s (fun i => c (f i))).2 (by rw [hs]; exact coords_face h.points f (hinj f hf) c hsup),
          norm_coords hp f (hinj f hf) c hsup]
      have hev : ∀ᶠ s' in nhds s, ∀ i, |(lstsq (baseMat h.points f)).transpose.mulVec s' i / npNorm p ((lstsq (baseMat h.points f)).transpose.mulVec s')
          - c (f i) / npNorm p c| < ε / M := by
        rw [Filter.eventually_all]
        intro i
        have := Metric.tendsto_nhds.1 (hcont i) (ε / M) (by positivity)
        simp only [Real.dist_eq, hval i] at this
        exact this
      filter_upwards [hev] with s' hs' _
      refine ⟨hsup, fun b hb i => ?_⟩
      have := hs' i
      rwa [(proj_coords hl h.points f (hli f hf) s' b).2 hb] at this
    · obtain ⟨b, hb⟩ : ∃ b, b = (lstsq (baseMat h.points f)).transpose.mulVec s := ⟨_, rfl⟩
      have hout : ∃ i, b i / npNorm p b < -10e-6 := by
        by_contra hno
        push Not at hno
        exact hsup (hin f hf b ((proj_coords hl h.points f (hli f hf) s b).1 hb.symm) hno)
      obtain ⟨i, hi⟩ := hout
      rw [hb] at hi
      filter_upwards [(hcont i).eventually_lt continuousAt_const hi] with s' hs' hin'
      obtain ⟨b', hb', _, hpos⟩ := hin'
      rw [(proj_coords hl h.points f (hli f hf) s' b').2 hb'] at hs'
      exact absurd (hpos i) (not_lt.2 hs'.le)
  have hfound : ∀ᶠ s' in nhds s, Inside p h.points f₀ s' := by
    have hcont := faceGain_continuous hp (lstsq (baseMat h.points f₀)).transpose s (hsne f₀ hf₀)
    have hval := (proj_coords hl h.points f₀ (hli f₀ hf₀) s (fun i => c (f₀ i))).2 (by rw [hs]; exact coords_face h.points f₀ (hinj f₀ hf₀) c hs₀)
    have hev : ∀ᶠ s' in nhds s, ∀ i, (-10e-6 : ℝ) < (lstsq (baseMat h.points f₀)).transpose.mulVec s' i / npNorm p ((lstsq (baseMat h.points f₀)).transpose.mulVec s') := by
      rw [Filter.eventually_all]
      intro i
      refine continuousAt_const.eventually_lt (hcont i) ?_
      rw [hval]
      have : 0 ≤ c (f₀ i) / npNorm p (fun i => c (f₀ i)) := div_nonneg (h0 _) (npNorm_nonneg _ _)
      linarith
    have hn : ∀ᶠ s' in nhds s, npNorm p ((lstsq (baseMat h.points f₀)).transpose.mulVec s') ≠ 0 := by
      have h1 : Continuous fun s' : Vec3 => npNorm p ((lstsq (baseMat h.points f₀)).transpose.mulVec s') :=
        (npNorm_continuous hp).comp (Continuous.matrix_mulVec continuous_const continuous_id)
      exact h1.continuousAt.eventually_ne (hsne f₀ hf₀)
    filter_upwards [hev, hn] with s' h1 h2
    exact ⟨_, (proj_coords hl h.points f₀ (hli f₀ hf₀) s' _).1 rfl, h2, h1⟩
  have hall : ∀ᶠ s' in nhds s, ∀ f ∈ h.valid, Inside p h.points f s' → (∀ l, c l ≠ 0 → ∃ i, f i = l) ∧
      ∀ b : Vec3, ∑ i, b i • h.points (f i) = s' → ∀ i, |b i / npNorm p b - c (f i) / npNorm p c| < ε / M := by
    have := (Filter.eventually_all_finite (l := nhds s) (I := {f : Face L | f ∈ h.valid}) (List.finite_toSet h.valid)
      (p := fun f s' => Inside p h.points f s' → (∀ l, c l ≠ 0 → ∃ i, f i = l) ∧
      ∀ b : Vec3, ∑ i, b i • h.points (f i) = s' → ∀ i, |b i / npNorm p b - c (f i) / npNorm p c| < ε / M)).2 hface
    exact this
  obtain ⟨δ, hδ, hball⟩ := Metric.eventually_nhds_iff.1 (hall.and hfound)
  refine ⟨δ, hδ, fun s' hs' => ?_⟩
  obtain ⟨h1, h2⟩ := hball (y := s') ((dist_pi_lt_iff hδ).2 fun x => by rw [Real.dist_eq]; exact hs' x)
  rcases vbap_single lstsq hl hp h hc hinj hli s' with ⟨h3, _⟩ | ⟨k, f, g, hf, h3, _, h4, h5, h6⟩
  · exact absurd h2 (h3 f₀ hf₀)
  · obtain ⟨hsup, hclose⟩ := h1 f (List.mem_of_getElem? hf) h3
    refine ⟨_, h4, fun l => ?_⟩
    have hg : |g l - c l / npNorm p c| < ε / M := by
      by_cases hlf : ∃ i, f i = l
      · obtain ⟨i, rfl⟩ := hlf
        obtain ⟨b, hb, _, _⟩ := h3
        rw [h6 b hb i]
        exact hclose b hb i
      · have hcl : c l = 0 := by
          by_contra hcl
          exact hlf (hsup l hcl)
        rw [h5 l fun i hi => hlf ⟨i, hi⟩, hcl, zero_div, sub_zero, abs_zero]
        positivity
    have hd : |h.d l ^ h.a| < M := by
      have := Finset.single_le_sum (f := fun l => |h.d l ^ h.a|) (fun _ _ => abs_nonneg _) (Finset.mem_univ l)
      rw [hM]
      linarith
    rw [← mul_sub, abs_mul]
    calc |h.d l ^ h.a| * |g l - c l / npNorm p c| ≤ M * |g l - c l / npNorm p c| := mul_le_mul_of_nonneg_right hd.le (abs_nonneg _)
      _ < M * (ε / M) := mul_lt_mul_of_pos_left hg hMpos
      _ = ε := by field_simp

/-! ### On the octahedron -/

theorem npNorm_vec3 (b : Vec3) : npNorm 2 b = √(b 0 ^ 2 + b 1 ^ 2 + b 2 ^ 2) := by
  unfold npNorm
  rw [← Real.sqrt_eq_rpow, Fin.sum_univ_three]
  simp

/-- On the octahedron the coordinates of a source have its length. -/
theorem oct_coords (f : Face 6) (hf : f ∈ Oct.faces) (b s : Vec3) (h : ∑ i, b i • Oct.pts (f i) = s) :
    npNorm 2 b = √(s 0 ^ 2 + s 1 ^ 2 + s 2 ^ 2) ∧ ((∃ i, f i = 0) ∧ b 0 = s 0 ∨ (∃ i, f i = 1) ∧ b 0 = -s 0) ∧
      ((∃ i, f i = 2) ∧ b 1 = s 1 ∨ (∃ i, f i = 3) ∧ b 1 = -s 1) ∧ ((∃ i, f i = 4) ∧ b 2 = s 2 ∨ (∃ i, f i = 5) ∧ b 2 = -s 2) := by
  rw [npNorm_vec3, ← h, Fin.sum_univ_three]
  simp only [Oct.faces, List.mem_cons, List.not_mem_nil, or_false] at hf
  rcases hf with rfl | rfl | rfl | rfl | rfl | rfl | rfl | rfl
  · exact ⟨by simp [Oct.pts], .inl ⟨⟨0, rfl⟩, by simp [Oct.pts]⟩, .inl ⟨⟨1, rfl⟩, by simp [Oct.pts]⟩, .inl ⟨⟨2, rfl⟩, by simp [Oct.pts]⟩⟩
  · exact ⟨by simp [Oct.pts], .inl ⟨⟨0, rfl⟩, by simp [Oct.pts]⟩, .inl ⟨⟨1, rfl⟩, by simp [Oct.pts]⟩, .inr ⟨⟨2, rfl⟩, by simp [Oct.pts]⟩⟩
  · exact ⟨by simp [Oct.pts], .inl ⟨⟨0, rfl⟩, by simp [Oct.pts]⟩, .inr ⟨⟨1, rfl⟩, by simp [Oct.pts]⟩, .inl ⟨⟨2, rfl⟩, by simp [Oct.pts]⟩⟩
  · exact ⟨by simp [Oct.pts], .inl ⟨⟨0, rfl⟩, by simp [Oct.pts]⟩, .inr ⟨⟨1, rfl⟩, by simp [Oct.pts]⟩, .inr ⟨⟨2, rfl⟩, by simp [Oct.pts]⟩⟩
  · exact ⟨by simp [Oct.pts], .inr ⟨⟨0, rfl⟩, by simp [Oct.pts]⟩, .inl ⟨⟨1, rfl⟩, by simp [Oct.pts]⟩, .inl ⟨⟨2, rfl⟩, by simp [Oct.pts]⟩⟩
  · exact ⟨by simp [Oct.pts], .inr ⟨⟨0, rfl⟩, by simp [Oct.pts]⟩, .inl ⟨⟨1, rfl⟩, by simp [Oct.pts]⟩, .inr ⟨⟨2, rfl⟩, by simp [Oct.pts]⟩⟩
  · exact ⟨by simp [Oct.pts], .inr ⟨⟨0, rfl⟩, by simp [Oct.pts]⟩, .inr ⟨⟨1, rfl⟩, by simp [Oct.pts]⟩, .inl ⟨⟨2, rfl⟩, by simp [Oct.pts]⟩⟩
  · exact ⟨by simp [Oct.pts], .inr ⟨⟨0, rfl⟩, by simp [Oct.pts]⟩, .inr ⟨⟨1, rfl⟩, by simp [Oct.pts]⟩, .inr ⟨⟨2, rfl⟩, by simp [Oct.pts]⟩⟩

theorem oct_five : √((3 : ℝ) ^ 2 + 4 ^ 2 + 0 ^ 2) = 5 := by
  rw [show (3 : ℝ) ^ 2 + 4 ^ 2 + 0 ^ 2 = 5 ^ 2 by norm_num]
  exact Real.sqrt_sq (by norm_num)

/-- The triangles around a source on an edge are those of the edge. -/
theorem oct_edge (f : Face 6) (hf : f ∈ Oct.faces) (b : Vec3) (h : ∑ i, b i • Oct.pts (f i) = ![3, 4, 0]) (hb : ∀ i, b i / npNorm 2 b ≥ -10e-6) :
    (∃ i, f i = 0) ∧ ∃ i, f i = 2 := by
  obtain ⟨h1, h2, h3, _⟩ := oct_coords f hf b _ h
  rw [h1] at hb
  have b0 := hb 0
  have b1 := hb 1
  simp only [Matrix.cons_val_zero, Matrix.cons_val_one, Matrix.cons_val, oct_five] at b0 b1 h2 h3
  refine ⟨?_, ?_⟩
  · rcases h2 with h | h
    · exact h.1
    · rw [h.2] at b0; norm_num at b0
  · rcases h3 with h | h
    · exact h.1
    · rw [h.2] at b1; norm_num at b1

theorem oct_edge_sum : ∑ l, (![3, 0, 4, 0, 0, 0] : Fin 6 → ℝ) l • Oct.pts l = ![3, 4, 0] := by
  rw [Fin.sum_univ_six]
  ext x
  fin_cases x <;> simp [Oct.pts]

/-- A source at 3 : 4 on the edge between two loudspeakers: gains 0.6 and 0.8, with any list of the triangles; and the gains there are
continuous. -/
example : ∃ lstsq : Mat3 → Mat3, (vbapHull lstsq 2 [![3, 4, 0]] none Oct.hull).1 = .ok [![0.6, 0, 0.8, 0, 0, 0]] ∧
    ∀ ε > 0, ∃ δ > 0, ∀ s' : Vec3, (∀ x, |s' x - (![3, 4, 0] : Vec3) x| < δ) → ∃ row', (vbapHull lstsq 2 [s'] none Oct.hull).1 = .ok [row'] ∧
      ∀ l, |row' l - (![0.6, 0, 0.8, 0, 0, 0] : Fin 6 → ℝ) l| < ε := by
  obtain ⟨lstsq, hl⟩ := exists_lstsq3
  have hnn : ∀ l, 0 ≤ (![3, 0, 4, 0, 0, 0] : Fin 6 → ℝ) l := by intro l; fin_cases l <;> norm_num
  have hne : (![3, 0, 4, 0, 0, 0] : Fin 6 → ℝ) ≠ 0 := fun h => by have := congrFun h 0; norm_num at this
  have hsup : ∀ f : Face 6, ((∃ i, f i = 0) ∧ ∃ i, f i = 2) → ∀ l, (![3, 0, 4, 0, 0, 0] : Fin 6 → ℝ) l ≠ 0 → ∃ i, f i = l := by
    rintro f ⟨h0, h2⟩ l hl'
    fin_cases l
    · exact h0
    · simp at hl'
    · exact h2
    · simp at hl'
    · simp at hl'
    · simp at hl'
  have hf₀ : (![0, 2, 4] : Face 6) ∈ Oct.faces := by decide
  have hin : ∀ f ∈ Oct.hull.valid, ∀ b : Vec3, ∑ i, b i • Oct.hull.points (f i) = ∑ l, (![3, 0, 4, 0, 0, 0] : Fin 6 → ℝ) l • Oct.hull.points l →
      (∀ i, b i / npNorm 2 b ≥ -10e-6) → ∀ l, (![3, 0, 4, 0, 0, 0] : Fin 6 → ℝ) l ≠ 0 → ∃ i, f i = l :=
    fun f hf b h hb => hsup f (oct_edge f hf b (h.trans oct_edge_sum) hb)
  have key := C153_corners lstsq hl (p := 2) (by norm_num) Oct.hull (oct_cache lstsq) Oct.inj Oct.li ![3, 0, 4, 0, 0, 0] hnn hne ![0, 2, 4] hf₀
    (hsup _ ⟨⟨0, rfl⟩, ⟨1, rfl⟩⟩) (fun f hf ⟨b, h1, _, h3⟩ => hin f hf b h1 fun i => (h3 i).le)
  obtain ⟨row, h1, h2⟩ := C153_continuous lstsq hl (p := 2) (by norm_num) Oct.hull (oct_cache lstsq) Oct.inj Oct.li ![3, 0, 4, 0, 0, 0] hnn hne ![0, 2, 4] hf₀
    (hsup _ ⟨⟨0, rfl⟩, ⟨1, rfl⟩⟩) hin
  have hes : ∑ l, (![3, 0, 4, 0, 0, 0] : Fin 6 → ℝ) l • Oct.hull.points l = ![3, 4, 0] := oct_edge_sum
  have hn : npNorm 2 (![3, 0, 4, 0, 0, 0] : Fin 6 → ℝ) = 5 := by
    unfold npNorm
    rw [← Real.sqrt_eq_rpow, Fin.sum_univ_six, ← oct_five]
    congr 1
    simp
  have hrow : (fun l => Oct.hull.d l ^ Oct.hull.a * ((![3, 0, 4, 0, 0, 0] : Fin 6 → ℝ) l / npNorm 2 ![3, 0, 4, 0, 0, 0])) = (![0.6, 0, 0.8, 0, 0, 0] : Fin 6 → ℝ) := by
    funext l
    rw [hn]
    show (1 : ℝ) ^ (1 : ℝ) * _ = _
    rw [one_rpow, one_mul]
    fin_cases l <;> norm_num
  rw [hrow] at key
  rw [key] at h1
  obtain rfl := (List.cons.inj (Except.ok.inj h1)).1
  rw [hes] at key h2
  exact ⟨lstsq, key, h2⟩

/-- The loudspeaker in front of the octahedron. -/
example : ∃ lstsq : Mat3 → Mat3, (vbapHull lstsq 2 [(2 : ℝ) • ![1, 0, 0]] none Oct.hull).1 = .ok [Pi.single 0 1] := by
  obtain ⟨lstsq, hl⟩ := exists_lstsq3
  have key := C153_loudspeaker lstsq hl (p := 2) (by norm_num) Oct.hull (oct_cache lstsq) Oct.inj Oct.li 0 ![0, 2, 4] (by show _ ∈ Oct.faces; decide)
    ⟨0, rfl⟩ 2 (by norm_num) (by
      rintro f hf ⟨b, h1, _, h3⟩
      obtain ⟨h4, h5, _⟩ := oct_coords f hf b _ h1
      rcases h5 with h | h
      · exact h.1
      · exfalso
        have b0 := h3 0
        have e : √(((2 : ℝ) • Oct.hull.points 0) 0 ^ 2 + ((2 : ℝ) • Oct.hull.points 0) 1 ^ 2 + ((2 : ℝ) • Oct.hull.points 0) 2 ^ 2) = 2 := by
          rw [show ((2 : ℝ) • Oct.hull.points 0) 0 ^ 2 + ((2 : ℝ) • Oct.hull.points 0) 1 ^ 2 + ((2 : ℝ) • Oct.hull.points 0) 2 ^ 2 = 2 ^ 2 by
            simp [Oct.hull, Oct.pts]]
          exact Real.sqrt_sq (by norm_num)
        rw [h4, h.2, e] at b0
        simp [Oct.hull, Oct.pts] at b0
        norm_num at b0)
  refine ⟨lstsq, ?_⟩
  have e : Oct.hull.d 0 ^ Oct.hull.a = 1 := one_rpow _
  rw [e] at key
  exact key

/-- **C153** Beside an edge the gains do jump, by the tolerance: a source that leaves the triangle listed first is kept there until it is outside by
more than 1e-5; then the gain of the third loudspeaker goes from -1e-5 to zero at once. -/
theorem C153_jump (lstsq : Mat3 → Mat3) (hl : LstsqSpec lstsq) : ∃ (s : Vec3) (row : Fin 6 → ℝ), (vbapHull lstsq 2 [s] none Oct.hull).1 = .ok [row] ∧
    ∀ δ > 0, ∃ (s' : Vec3) (row' : Fin 6 → ℝ), (∀ x, |s' x - s x| < δ) ∧ (vbapHull lstsq 2 [s'] none Oct.hull).1 = .ok [row'] ∧ 5e-6 < |row' 4 - row 4| := by
  obtain ⟨t, ht⟩ : ∃ t, t = √(25e-10 / (1 - 1e-10) : ℝ) := ⟨_, rfl⟩
  have ht2 : t ^ 2 = 25e-10 / (1 - 1e-10) := by rw [ht]; exact Real.sq_sqrt (by norm_num)
  have htp : 0 < t := by rw [ht]; exact Real.sqrt_pos.2 (by norm_num)
  have htl : 4e-5 < t := by rw [ht, Real.lt_sqrt (by norm_num)]; norm_num
  have run : ∀ (u : ℝ), ∃ row, (vbapHull lstsq 2 [![3, 4, -u]] none Oct.hull).1 = .ok [row] ∧
      ((u / √(25 + u ^ 2) ≥ 10e-6 → 0 < u → row 4 = 0) ∧ (u / √(25 + u ^ 2) < 10e-6 → 0 < u → row 4 = -(u / √(25 + u ^ 2)))) := by
    intro u
    have hlen : √((![3, 4, -u] : Vec3) 0 ^ 2 + (![3, 4, -u] : Vec3) 1 ^ 2 + (![3, 4, -u] : Vec3) 2 ^ 2) = √(25 + u ^ 2) := by
      congr 1
      show (3 : ℝ) ^ 2 + 4 ^ 2 + (-u) ^ 2 = _
      ring
    have hpos : 0 < √(25 + u ^ 2) := Real.sqrt_pos.2 (by positivity)
    have h024 : ∑ i, (![3, 4, -u] : Vec3) i • Oct.pts ((![0, 2, 4] : Face 6) i) = ![3, 4, -u] := by
      rw [Fin.sum_univ_three]
      ext x
      fin_cases x <;> simp [Oct.pts]
    have hnorm : npNorm 2 (![3, 4, -u] : Vec3) = √(25 + u ^ 2) := by rw [npNorm_vec3, hlen]
    rcases vbap_single lstsq hl (p := 2) (by norm_num) Oct.hull (oct_cache lstsq) Oct.inj Oct.li ![3, 4, -u] with ⟨h1, h2⟩ | ⟨k, f, g, hf, h1, h2, h3, h4, h5⟩
    · refine ⟨_, h2, fun _ _ => rfl, fun hu hu0 => ?_⟩
      exfalso
      refine h1 ![0, 2, 4] (by show _ ∈ Oct.faces; decide) ⟨![3, 4, -u], h024, by rw [hnorm]; exact hpos.ne', fun i => ?_⟩
      rw [hnorm]
      fin_cases i
      · show (3 : ℝ) / _ > _
        have : 0 < (3 : ℝ) / √(25 + u ^ 2) := by positivity
        linarith
      · show (4 : ℝ) / _ > _
        have : 0 < (4 : ℝ) / √(25 + u ^ 2) := by positivity
        linarith
      · show (-u) / _ > _
        rw [neg_div]
        linarith
    · refine ⟨_, h3, fun hu hu0 => ?_, fun hu hu0 => ?_⟩
      · show (1 : ℝ) ^ (1 : ℝ) * g 4 = 0
        obtain ⟨b, hb, _, hbp⟩ := h1
        obtain ⟨e1, _, _, e4⟩ := oct_coords f (List.mem_of_getElem? hf) b _ hb
        have b2 := hbp 2
        rw [e1, hlen] at b2
        rcases e4 with e4 | e4
        · exfalso
          rw [e4.2] at b2
          change (-u) / _ > _ at b2
          rw [neg_div] at b2
          linarith
        · rw [h4 4, mul_zero]
          intro i hi
          obtain ⟨i', hi'⟩ := e4.1
          have hall : ∀ f ∈ Oct.faces, ∀ i i' : Fin 3, f i = 4 → f i' = 5 → False := by decide +kernel
          exact hall f (List.mem_of_getElem? hf) i i' hi hi'
      · have hk : k = 0 := by
          by_contra hk
          refine h2 0 ![0, 2, 4] (by omega) rfl ⟨![3, 4, -u], h024, by rw [hnorm]; exact hpos.ne', fun i => ?_⟩
          rw [hnorm]
          fin_cases i
          · show (3 : ℝ) / _ > _
            have : 0 < (3 : ℝ) / √(25 + u ^ 2) := by positivity
            linarith
          · show (4 : ℝ) / _ > _
            have : 0 < (4 : ℝ) / √(25 + u ^ 2) := by positivity
            linarith
          · show (-u) / _ > _
            rw [neg_div]
            linarith
        subst hk
        obtain rfl : (![0, 2, 4] : Face 6) = f := Option.some.inj hf
        have := h5 ![3, 4, -u] h024 2
        rw [hnorm] at this
        show (1 : ℝ) ^ (1 : ℝ) * g 4 = _
        rw [one_rpow, one_mul]
        rw [show g 4 = g ((![0, 2, 4] : Face 6) 2) from rfl, this, ← neg_div]
        rfl
  obtain ⟨row, h1, h2, -⟩ := run t
  have hq : t / √(25 + t ^ 2) = 10e-6 := by
    have : 25 + t ^ 2 = (t * 1e5) ^ 2 := by rw [mul_pow, ht2]; norm_num
    rw [this, Real.sqrt_sq (by positivity)]
    field_simp
    norm_num
  refine ⟨_, row, h1, fun δ hδ => ?_⟩
  obtain ⟨u, hu⟩ : ∃ u, u = max (t - δ / 2) (t * (9 / 10)) := ⟨_, rfl⟩
  have hut : u < t := by rw [hu]; exact max_lt (by linarith) (by linarith)
  have hul : t * (9 / 10) ≤ u := by rw [hu]; exact le_max_right _ _
  have hud : t - δ / 2 ≤ u := by rw [hu]; exact le_max_left _ _
  have hup : 0 < u := lt_of_lt_of_le (by positivity) hul
  obtain ⟨row', h1', -, h3'⟩ := run u
  have hlt : u / √(25 + u ^ 2) < 10e-6 := by
    rw [← hq, div_lt_div_iff₀ (Real.sqrt_pos.2 (by positivity)) (Real.sqrt_pos.2 (by positivity))]
    refine lt_of_pow_lt_pow_left₀ 2 (by positivity) ?_
    rw [mul_pow, mul_pow, Real.sq_sqrt (by positivity), Real.sq_sqrt (by positivity)]
    nlinarith
  have hgt : 5e-6 < u / √(25 + u ^ 2) := by
    have h6 : √(25 + u ^ 2) < 6 := by
      rw [Real.sqrt_lt' (by norm_num)]
      have : u ^ 2 < t ^ 2 := by nlinarith
      rw [ht2] at this
      norm_num at this ⊢
      linarith
    rw [lt_div_iff₀ (Real.sqrt_pos.2 (by positivity))]
    nlinarith
  refine ⟨_, row', fun x => ?_, h1', ?_⟩
  · fin_cases x
    · simpa using hδ
    · simpa using hδ
    · show |(-u) - (-t)| < δ
      rw [show -u - -t = t - u by ring, abs_of_pos (by linarith)]
      linarith
  · rw [h2 hq.ge htp, h3' hlt hup, sub_zero, abs_neg, abs_of_pos (by linarith)]
    exact hgt

example : ∃ lstsq : Mat3 → Mat3, LstsqSpec lstsq := exists_lstsq3

end Verif.Props
