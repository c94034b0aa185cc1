import Verif.Model.PlotShapes
import Verif.Props.DesignDecoding
import Verif.Props.PlotMaps
import Verif.Props.ShComplex
import Mathlib.Tactic

/-!
C123 (`plot.decoder_performance`), C124 (`plot.hull`), C125 (`plot.polar`), C126 (`plot.sh_bar`), C127 (`plot.sh_coeffs` and its variants).
-/

namespace Verif.Props
open Real Verif.Plot Verif.Utils Verif.Sph Verif.Decoder

/-! ### C123 -/

/-- C123: the documented names select their renderer in upper and lower case, everything else is a `ValueError`. -/
theorem C123_names :
    ["VBAP", "VBIP", "ALLRAP", "ALLRAP2", "NLS", "ALLRAD", "ALLRAD2", "EPAD", "MAD", "SAD"].mapM rendererOf
      = .ok [.vbap, .vbip, .allrap, .allrap2, .nls, .allrad, .allrad2, .epad, .mad, .sad] ∧
    (∀ s t : String, s.toLower = t.toLower → rendererOf s = rendererOf t) ∧
    ∀ s : String, s.toLower ∉ ["vbap", "vbip", "allrap", "allrap2", "nls", "allrad", "allrad2", "epad", "mad", "sad"] → rendererOf s = .error .valueError := by
  refine ⟨by decide +kernel, fun s t h => by unfold rendererOf; rw [h], fun s hs => ?_⟩
  simp only [List.mem_cons, List.not_mem_nil, or_false, not_or] at hs
  unfold rendererOf
  split <;> simp_all

theorem ls_unit {L : ℕ} (h : Hull L) (hd : ∀ l, h.d l = norm3 (h.points l)) (hpos : ∀ l, h.points l ≠ 0) (l : Fin L) :
    ∑ c, (h.points l c / h.d l) ^ 2 = 1 := by
  have hn := norm3_pos (hpos l)
  have e : ∑ c, h.points l c ^ 2 = norm3 (h.points l) ^ 2 := by
    unfold norm3
    rw [Real.sq_sqrt (by rw [show h.points l ⬝ᵥ h.points l = ∑ c, h.points l c ^ 2 from Finset.sum_congr rfl fun c _ => (sq _).symm]; positivity)]
    exact Finset.sum_congr rfl fun c _ => sq _
  simp only [div_pow]
  rw [← Finset.sum_div, e, hd l, div_self (by positivity)]

/-- The energy vector which the measures use: loudspeaker directions, gains without distance compensation. -/
noncomputable def plotRE {L : ℕ} (h : Hull L) (g : Fin L → ℝ) : Option Vec3 × ℝ := rE (fun l c => h.points l c / h.d l) fun l => g l / h.d l ^ h.a

/-- C123: amplitude and energy are the sums over the gains; half the spread is the angle whose cosine is the length of the energy vector, at most 90 degrees; the
error is the angle between the energy vector and the direction in degrees (unless the vector is shorter than 1e-14). -/
theorem C123_meaning {L : ℕ} (h : Hull L) (hd : ∀ l, h.d l = norm3 (h.points l)) (hpos : ∀ l, h.points l ≠ 0) (dir : Vec3) (hdir : norm3 dir = 1)
    (g : Fin L → ℝ) :
    (measures h dir g).amplitude = ∑ l, g l ∧ (measures h dir g).energy = ∑ l, g l ^ 2 ∧ (measures h dir g).spread ∈ Set.Icc 0 180 ∧
      cos ((measures h dir g).spread / 2 * (π / 180)) = (plotRE h g).2 ∧
      (∀ v, (plotRE h g).1 = some v → 10e-15 ≤ norm3 v → (measures h dir g).error = some (angleBetween dir v * (180 / π))) ∧
      (∀ e, (measures h dir g).error = some e → e ∈ Set.Icc 0 180) := by
  have hp := pi_pos
  have h1 : (plotRE h g).2 ≤ 1 := C26_le_one _ (ls_unit h hd hpos) _
  have h0 : 0 ≤ (plotRE h g).2 := by
    unfold plotRE rE
    simp only
    split
    · exact le_rfl
    · exact Real.sqrt_nonneg _
  have hs : (measures h dir g).spread = 2 * arccos (plotRE h g).2 * 180 / π := by
    show 2 * arccos (min (max (plotRE h g).2 0) 1) * 180 / π = _
    rw [max_eq_left h0, min_eq_left h1]
  refine ⟨rfl, rfl, ?_, ?_, ?_, ?_⟩
  · rw [hs]
    have ha := Real.arccos_nonneg (plotRE h g).2
    have hb : arccos (plotRE h g).2 ≤ π / 2 := Real.arccos_le_pi_div_two.2 h0
    constructor
    · positivity
    · rw [div_le_iff₀ hp]; nlinarith
  · rw [hs, show 2 * arccos (plotRE h g).2 * 180 / π / 2 * (π / 180) = arccos (plotRE h g).2 by field_simp]
    exact Real.cos_arccos (by linarith) h1
  · intro v hv hlen
    have hm : (plotRE h g).2 = norm3 v := by
      have : (plotRE h g).2 = (match (plotRE h g).1 with | none => 0 | some v => √(∑ c, v c ^ 2)) := rfl
      rw [this, hv]
      unfold norm3
      simp only
      congr 1
      exact Finset.sum_congr rfl fun c _ => sq _
    have he : (measures h dir g).error
        = (plotRE h g).1.map fun v => arccos (min (max (∑ c, dir c * (v c / max (plotRE h g).2 10e-15)) (-1)) 1) * (180 / π) := rfl
    rw [he, hv, hm, max_eq_left hlen]
    simp only [Option.map_some]
    congr 2
    show _ = arccos (clip1 (dir ⬝ᵥ v / (norm3 dir * norm3 v)))
    unfold clip1
    rw [hdir, one_mul]
    congr 3
    unfold dotProduct
    rw [Finset.sum_div]
    exact Finset.sum_congr rfl fun c _ => by ring
  · intro e he
    have he' : (measures h dir g).error
        = (plotRE h g).1.map fun v => arccos (min (max (∑ c, dir c * (v c / max (plotRE h g).2 10e-15)) (-1)) 1) * (180 / π) := rfl
    rw [he'] at he
    obtain ⟨v, -, rfl⟩ := Option.map_eq_some_iff.1 he
    have := Real.arccos_nonneg (min (max (∑ c, dir c * (v c / max (plotRE h g).2 10e-15)) (-1)) 1)
    have := Real.arccos_le_pi (min (max (∑ c, dir c * (v c / max (plotRE h g).2 10e-15)) (-1)) 1)
    constructor
    · positivity
    · rw [← mul_div_assoc, div_le_iff₀ hp]; nlinarith

/-- C123: a direction without any sound is drawn with the spread of 180 degrees, its error is `nan`. -/
theorem C123_silent {L : ℕ} (h : Hull L) (dir : Vec3) :
    measures h dir (fun _ => 0) = { amplitude := 0, energy := 0, spread := 180, error := none } := by
  have hp := pi_pos.ne'
  unfold measures
  simp only [zero_div, C26_zero]
  simp
  field_simp

/-- C123: louder gains change amplitude and energy only. -/
theorem C123_scale {L : ℕ} (h : Hull L) (dir : Vec3) (g : Fin L → ℝ) (k : ℝ) (hk : k ≠ 0) :
    (measures h dir fun l => k * g l).spread = (measures h dir g).spread ∧ (measures h dir fun l => k * g l).error = (measures h dir g).error ∧
      (measures h dir fun l => k * g l).amplitude = k * (measures h dir g).amplitude ∧
      (measures h dir fun l => k * g l).energy = k ^ 2 * (measures h dir g).energy := by
  have e : rE (fun l c => h.points l c / h.d l) (fun l => k * g l / h.d l ^ h.a) = rE (fun l c => h.points l c / h.d l) (fun l => g l / h.d l ^ h.a) := by
    rw [← C26_scale _ (fun l => g l / h.d l ^ h.a) k hk]
    congr 1
    funext l
    ring
  unfold measures
  simp only [e]
  refine ⟨trivial, trivial, ?_, ?_⟩
  · rw [Finset.mul_sum]
  · rw [Finset.mul_sum]
    exact Finset.sum_congr rfl fun l _ => by ring

/-- `C123_meaning` and `C123_scale` on the octahedron, the front and the left loudspeaker playing. -/
example : (measures Oct.hull ![1, 0, 0] ![1, 0, 1 / 2, 0, 0, 0]).energy = 5 / 4 ∧
    (measures Oct.hull ![1, 0, 0] fun l => 3 * (![1, 0, 1 / 2, 0, 0, 0] : Fin 6 → ℝ) l).spread = (measures Oct.hull ![1, 0, 0] ![1, 0, 1 / 2, 0, 0, 0]).spread := by
  refine ⟨?_, (C123_scale Oct.hull ![1, 0, 0] ![1, 0, 1 / 2, 0, 0, 0] 3 (by norm_num)).1⟩
  rw [(C123_meaning Oct.hull (fun l => (Oct.norm_pts l).symm) Oct.pts_ne ![1, 0, 0] (by simp [norm3, dotProduct, Fin.sum_univ_three]) ![1, 0, 1 / 2, 0, 0, 0]).2.1, Fin.sum_univ_six]
  simp
  norm_num

/-- C123: nearest loudspeaker selection has no spread, and its error is the smallest angle to a loudspeaker. -/
theorem C123_nls {L : ℕ} (hL : 0 < L) (h : Hull L) (hd : ∀ l, h.d l = norm3 (h.points l)) (hpos : ∀ l, h.points l ≠ 0) (dir : Vec3) (hdir : norm3 dir = 1) :
    ∃ (i : Fin L) (m : Measures), performanceNls h dir = .ok m ∧ (∀ l, angleBetween dir (h.points i) ≤ angleBetween dir (h.points l)) ∧
      m.amplitude = h.d i ^ h.a ∧ m.energy = (h.d i ^ h.a) ^ 2 ∧ m.spread = 0 ∧ m.error = some (angleBetween dir (h.points i) * (180 / π)) := by
  have hne : dir ≠ 0 := by
    rintro rfl
    simp [norm3] at hdir
  obtain ⟨i, h1, h2, -⟩ := C44_nearest hL h hd hpos dir hne
  have hn := norm3_pos (hpos i)
  have hdi : 0 < h.d i := by rw [hd i]; exact hn
  have hg : (fun l => (Pi.single i (h.d i ^ h.a) : Fin L → ℝ) l / h.d l ^ h.a) = Pi.single i 1 := by
    funext l
    by_cases hl : l = i
    · subst hl
      rw [Pi.single_eq_same, Pi.single_eq_same, div_self (Real.rpow_pos_of_pos hdi _).ne']
    · rw [Pi.single_eq_of_ne hl, Pi.single_eq_of_ne hl, zero_div]
  have hr : rE (fun l c => h.points l c / h.d l) (Pi.single i 1) = (some fun c => h.points i c / h.d i, 1) :=
    C26_single _ (ls_unit h hd hpos) i 1 one_ne_zero
  refine ⟨i, measures h dir (Pi.single i (h.d i ^ h.a)), by unfold performanceNls; rw [h1]; rfl, h2, ?_, ?_, ?_, ?_⟩
  · show ∑ l, (Pi.single i (h.d i ^ h.a) : Fin L → ℝ) l = _
    simp
  · show ∑ l, (Pi.single i (h.d i ^ h.a) : Fin L → ℝ) l ^ 2 = _
    rw [Finset.sum_eq_single i]
    · rw [Pi.single_eq_same]
    · intro b _ hb; rw [Pi.single_eq_of_ne hb]; ring
    · intro h; exact absurd (Finset.mem_univ _) h
  · unfold measures
    simp only [hg, hr]
    simp
  · unfold measures
    simp only [hg, hr, Option.map_some]
    congr 2
    show _ = arccos (clip1 (dir ⬝ᵥ h.points i / (norm3 dir * norm3 (h.points i))))
    unfold clip1
    rw [hdir, one_mul, max_eq_left (by norm_num : (10e-15 : ℝ) ≤ 1)]
    congr 3
    unfold dotProduct
    rw [Finset.sum_div, ← hd i]
    exact Finset.sum_congr rfl fun c _ => by ring

/-- C123: the sampling decoder on a design of strength `2N+1` (unit distances) has in every direction the spread `2 arccos(N/(N+1))` and, from order one on, no
angular error. -/
theorem C123_sad {L N t : ℕ} (lstsq : Mat3 → Mat3) (h : Hull L) (hu : ∀ l, ∑ c, h.points l c ^ 2 = 1) (hdist : ∀ l, h.d l = 1)
    (hd : IsTDesign t (fun l => (dirOf (h.points l)).1) (fun l => (dirOf (h.points l)).2)) (ht : 2 * N + 1 ≤ t) (azi zen : ℝ) (hz : zen ∈ Set.Icc 0 π) :
    ∃ m, performanceSad lstsq h N azi zen = .ok m ∧ m.spread = 2 * arccos (N / (N + 1)) * 180 / π ∧ (1 ≤ N → m.error = some 0) := by
  obtain ⟨o, ho, hr⟩ := C112_basic lstsq h hu hd ht (fun _ : Fin 1 => 1) azi zen hz
  have hF : srcToSh (fun _ : Fin 1 => fun _ : Fin 1 => (1 : ℝ)) (fun _ => azi) (fun _ => zen) N = fun q (_ : Fin 1) => shVec N azi zen q := by
    funext q s
    refine (Matrix.mul_apply).trans ?_
    rw [Fin.sum_univ_one]
    exact mul_one _
  rw [hF] at ho
  have hr0 := hr 0 one_ne_zero
  have e : rE (fun l c => h.points l c / h.d l) (fun l => o l 0 / h.d l ^ h.a) = (some fun c => N / (N + 1) * dirVec azi zen c, (N : ℝ) / (N + 1)) := by
    rw [← hr0]
    congr 1
    · funext l c; rw [hdist, div_one]
    · funext l; rw [hdist, Real.one_rpow, div_one]
  refine ⟨_, by unfold performanceSad; rw [ho]; rfl, ?_, fun hN => ?_⟩
  · unfold measures
    simp only [e]
    rw [max_eq_left (by positivity), min_eq_left]
    rw [div_le_one (by positivity)]; linarith
  · unfold measures
    simp only [e, Option.map_some]
    have hNr : (1 : ℝ) ≤ N := by exact_mod_cast hN
    have hhalf : (1 / 2 : ℝ) ≤ N / (N + 1) := by rw [le_div_iff₀ (by positivity)]; linarith
    have hmx : max ((N : ℝ) / (N + 1)) 10e-15 = N / (N + 1) := max_eq_left (by linarith [(by norm_num : (10e-15 : ℝ) ≤ 1 / 2)])
    rw [hmx]
    have hk : (N : ℝ) / (N + 1) ≠ 0 := by linarith
    have hsum : ∑ c, (![(sph2cart azi zen).1, (sph2cart azi zen).2.1, (sph2cart azi zen).2.2] : Vec3) c * ((N : ℝ) / (N + 1) * dirVec azi zen c / (N / (N + 1))) = 1 := by
      have : ∀ c, (N : ℝ) / (N + 1) * dirVec azi zen c / (N / (N + 1)) = dirVec azi zen c := fun c => mul_div_cancel_left₀ _ hk
      simp only [this]
      simp [sph2cart, dirVec, Fin.sum_univ_three]
      have := sin_sq_add_cos_sq azi; have := sin_sq_add_cos_sq zen; nlinarith
    rw [hsum]
    simp

/-- The octahedron meets the hypotheses of `C123_nls`. -/
example : ∃ (i : Fin 6) (m : Measures), performanceNls Oct.hull ![1, 0, 0] = .ok m ∧ m.spread = 0 ∧
    m.error = some (angleBetween ![1, 0, 0] (Oct.hull.points i) * (180 / π)) := by
  obtain ⟨i, m, h1, -, -, -, h2, h3⟩ := C123_nls (by norm_num) Oct.hull (fun l => (Oct.norm_pts l).symm) Oct.pts_ne ![1, 0, 0]
    (by simp [norm3, dotProduct, Fin.sum_univ_three])
  exact ⟨i, m, h1, h2, h3⟩

/-- The corners of a cube meet the hypotheses of `C123_sad` at first order. -/
example : ∃ (h : Hull 8) (m : Measures), performanceSad id h 1 1 1 = .ok m ∧ m.error = some 0 := by
  obtain ⟨azi, zen, hd⟩ := cube_design
  set h : Hull 8 := { points := fun l => dirVec (azi l) (zen l), listener := 0, d := 1, a := 1, simplices := [], centroids := [], faceAreas := [], faceNormals := [], barycenter := 0, encloses := [], valid := [], invBase := none, charOrder := none }
  obtain ⟨m, hm, -, he⟩ := C123_sad (N := 1) id h (fun l => by
    have := dir_self (azi l) (zen l)
    rw [← this]; exact Finset.sum_congr rfl fun c _ => sq _) (fun _ => rfl) (design_points hd) (by norm_num) 1 1
    ⟨zero_le_one, by have := pi_gt_three; linarith⟩
  exact ⟨h, m, hm, he le_rfl⟩

/-- Spread of the first order, 120 degrees: the formula is not trivial. -/
example : 2 * arccos (((1 : ℕ) : ℝ) / ((1 : ℕ) + 1)) * 180 / π = 120 := by
  have hp := pi_pos.ne'
  rw [show (((1 : ℕ) : ℝ) / ((1 : ℕ) + 1)) = cos (π / 3) by rw [cos_pi_div_three]; norm_num, Real.arccos_cos (by positivity) (by linarith [pi_pos])]
  field_simp; norm_num

/-! ### C124 -/

/-- C124: without colours, valid faces are drawn filled and invalid ones dashed; each face of the hull is drawn once. -/
theorem C124_faces {L : ℕ} (h : Hull L) (drawLs : Bool) (axLim : Option ℝ) : ∃ p, hullPlot h none true drawLs axLim none = .ok p ∧
    (∀ f, f ∈ p.faces.map Prod.fst ↔ f ∈ h.simplices ∧ isSimplexValid h.valid f = true) ∧
    (∀ f, f ∈ p.dashed ↔ f ∈ h.simplices ∧ isSimplexValid h.valid f = false) ∧
    (p.faces.map Prod.fst ++ p.dashed).Perm h.simplices := by
  refine ⟨_, rfl, ?_, ?_, ?_⟩
  · intro f
    simp [List.map_map, Function.comp_def]
  · intro f
    simp
  · simp only [Option.getD_none, if_true, List.map_map, Function.comp_def, List.map_id']
    exact List.filter_append_perm (fun s => isSimplexValid h.valid s) h.simplices

/-- C124: if all faces are valid, or invalid ones are not marked, face `j` is drawn in colour `j`; a wrong number of colours is an `AssertionError`.
Missing: invalid faces, see `C124_colors_fail`. -/
theorem C124_colors_partial {L : ℕ} (h : Hull L) (simplices : Option (List (Face L))) (mark drawLs : Bool) (axLim : Option ℝ) (c : List ℝ) :
    (c.length ≠ (simplices.getD h.simplices).length → hullPlot h simplices mark drawLs axLim (some c) = .error .assertionError) ∧
    (c.length = (simplices.getD h.simplices).length → (mark = true → ∀ s ∈ simplices.getD h.simplices, isSimplexValid h.valid s = true) →
      ∃ p, hullPlot h simplices mark drawLs axLim (some c) = .ok p ∧ p.dashed = [] ∧ p.faces.length = c.length ∧
        ∀ (j : ℕ) (hj : j < p.faces.length) (hs : j < (simplices.getD h.simplices).length) (hc : j < c.length),
          p.faces[j] = ((simplices.getD h.simplices)[j], some c[j])) := by
  constructor
  · intro hc
    unfold hullPlot
    simp only
    rw [if_neg hc]
  · intro hc hv
    unfold hullPlot
    simp only
    rw [if_pos hc]
    have e : (if mark = true then (simplices.getD h.simplices).filter (fun s => isSimplexValid h.valid s) else simplices.getD h.simplices)
        = simplices.getD h.simplices := by
      cases mark
      · rfl
      · rw [if_pos rfl, List.filter_eq_self]; exact hv rfl
    refine ⟨_, rfl, ?_, ?_, ?_⟩
    · cases mark
      · rfl
      · simp only [if_true, List.filter_eq_nil_iff]
        intro s hs
        simp [hv rfl s hs]
    · simp [e, hc]
    · intro j hj hs hcj
      simp [e]

/-- C124: if the first face is invalid and the second valid, the second is drawn in the colour of the first. -/
theorem C124_colors_fail {L : ℕ} (h : Hull L) (s0 s1 : Face L) (ss : List (Face L)) (hs : h.simplices = s0 :: s1 :: ss) (h0 : isSimplexValid h.valid s0 = false)
    (h1 : isSimplexValid h.valid s1 = true) (c0 c1 : ℝ) (cs : List ℝ) (hc : cs.length = ss.length) (drawLs : Bool) (axLim : Option ℝ) :
    ∃ p fs, hullPlot h none true drawLs axLim (some (c0 :: c1 :: cs)) = .ok p ∧ p.faces = (s1, some c0) :: fs := by
  unfold hullPlot
  simp only [Option.getD_none, hs]
  rw [if_pos (by simp [hc])]
  refine ⟨_, (ss.filter fun s => isSimplexValid h.valid s).zip ((c1 :: cs).map some), rfl, ?_⟩
  simp only [if_true, List.filter_cons, h0, h1, List.map_cons, List.zip_cons_cons]
  rfl

/-- C124: every loudspeaker is labelled with its number at its position, and the default axes contain all of them and the unit sphere; without `draw_ls` only
the labels are missing. -/
theorem C124_labels {L : ℕ} (h : Hull L) (simplices : Option (List (Face L))) (mark : Bool) (axLim : Option ℝ) (color : Option (List ℝ)) (p : HullPlot L)
    (hp : hullPlot h simplices mark true axLim color = .ok p) :
    p.labels.length = L ∧ (∀ l : Fin L, p.labels[(l : ℕ)]? = some ((l : ℕ), h.points l)) ∧ (∀ r, axLim = some r → p.lim = r) ∧
      (axLim = none → 1.1 ≤ p.lim ∧ ∀ l c, |h.points l c| < p.lim) ∧
      hullPlot h simplices mark false axLim color = .ok { p with labels := [] } := by
  have key : p.labels = List.ofFn (fun l : Fin L => ((l : ℕ), h.points l)) ∧ p.lim = axLim.getD (axisLimit h.points) := by
    unfold hullPlot at hp
    cases color with
    | none => obtain rfl := Except.ok.inj hp; exact ⟨rfl, rfl⟩
    | some c =>
      simp only at hp
      split at hp
      · obtain rfl := Except.ok.inj hp; exact ⟨rfl, rfl⟩
      · cases hp
  have hoff : hullPlot h simplices mark false axLim color = .ok { p with labels := [] } := by
    unfold hullPlot at hp ⊢
    cases color with
    | none => obtain rfl := Except.ok.inj hp; rfl
    | some c =>
      simp only at hp ⊢
      split at hp
      · rename_i hc; obtain rfl := Except.ok.inj hp; rw [if_pos hc]; rfl
      · cases hp
  refine ⟨by simp [key.1], fun l => by simp [key.1], fun r hr => by rw [key.2, hr]; rfl, fun hn => ?_, hoff⟩
  rw [key.2, hn]
  show 1.1 ≤ axisLimit h.points ∧ _
  unfold axisLimit
  set M := (List.ofFn fun l => [|h.points l 0|, |h.points l 1|, |h.points l 2|]).flatten.foldl max 0 with hM
  have h1 : (1 : ℝ) ≤ max M 1 := le_max_right _ _
  refine ⟨by linarith, fun l c => ?_⟩
  have hmem : |h.points l c| ∈ (List.ofFn fun l => [|h.points l 0|, |h.points l 1|, |h.points l 2|]).flatten := by
    rw [List.mem_flatten]
    refine ⟨_, List.mem_ofFn.2 ⟨l, rfl⟩, ?_⟩
    fin_cases c <;> simp
  have h2 : |h.points l c| ≤ M := (foldl_max_spec _ 0).2.1 _ hmem
  have h3 : M ≤ max M 1 := le_max_left _ _
  show _ < 1.1 * max M 1
  linarith

/-- The octahedron with its first face removed: the colours move. -/
example : ∃ p fs, hullPlot { Oct.hull with valid := Oct.faces.tail } none true true none (some (List.range 8 |>.map fun k => (k : ℝ))) = .ok p ∧
    p.faces = (Oct.faces.getD 1 0, some 0) :: fs := by
  have hs : Oct.hull.simplices = Oct.faces := rfl
  obtain ⟨p, fs, h1, h2⟩ := C124_colors_fail { Oct.hull with valid := Oct.faces.tail } (Oct.faces.getD 0 0) (Oct.faces.getD 1 0) (Oct.faces.drop 2) (by rw [hs]; rfl)
    (by decide +kernel) (by decide +kernel) 0 1 [2, 3, 4, 5, 6, 7] rfl true none
  refine ⟨p, fs, ?_, h2⟩
  rw [← h1]
  simp [List.range_succ]

/-! ### C125 -/

/-- C125: each value is drawn on exactly one curve at its angle, non-negative ones on the first, negative ones with their magnitude on the second, in dB if asked. -/
theorem C125_curves (theta r : List ℝ) (todb : Bool) (rlim : Option (ℝ × ℝ)) (h : theta.length = r.length) : ∃ p, polar theta r todb rlim = .ok p ∧
    p.pos.length = r.length ∧ p.neg.length = r.length ∧
    ∀ (i : ℕ) (hp : i < p.pos.length) (hn : i < p.neg.length) (ht : i < theta.length) (hr : i < r.length),
      let v := if todb then 20 * logb 10 |r[i]| else |r[i]|
      (0 ≤ r[i] → p.pos[i] = (theta[i], some v) ∧ p.neg[i] = (theta[i], none)) ∧ (r[i] < 0 → p.pos[i] = (theta[i], none) ∧ p.neg[i] = (theta[i], some v)) := by
  unfold polar
  rw [if_pos h]
  refine ⟨_, rfl, by simp [h], by simp [h], ?_⟩
  intro i hp hn ht hr
  simp only [List.getElem_zip, List.getElem_map, Prod.mk.injEq, true_and]
  constructor
  · intro h0
    rw [if_neg (not_lt.2 h0), if_pos h0]
    cases todb <;> simp [db, abs_of_nonneg h0]
  · intro h0
    rw [if_pos h0, if_neg (not_le.2 h0)]
    cases todb <;> simp [db]

/-- C125: the radial axis is the given one or -40 to 0 dB (linear: 0 to 1), with a margin on top; unequal numbers of angles and values are rejected. -/
theorem C125_limits (theta r : List ℝ) (todb : Bool) (rlim : Option (ℝ × ℝ)) :
    (theta.length ≠ r.length → polar theta r todb rlim = .error .valueError) ∧
      ∀ p, polar theta r todb rlim = .ok p → p.rmax = (match rlim with | some l => l.2 | none => if todb then 0 else 1) + (if todb then 0.5 else 0.03) ∧
        p.rmin = (match rlim with | some l => l.1 | none => if todb then -40 else 0) := by
  unfold polar
  constructor
  · intro h; rw [if_neg h]
  · intro p hp
    split at hp
    · obtain rfl := Except.ok.inj hp
      cases rlim <;> cases todb <;> simp
    · cases hp

example : ∃ p, polar [0, 1] [1, -1] true none = .ok p ∧ p.pos.length = 2 :=
  let ⟨p, h1, h2, _⟩ := C125_curves [0, 1] [1, -1] true none rfl
  ⟨p, h1, h2⟩

/-! ### C126 -/

theorem barTicks_eq (R g : ℕ) (hg : 0 < g) : barTicks R g = (List.range (R / g * g)).map fun i => ((i / g : ℕ) : ℝ) + barOffset g (i % g) := by
  unfold barTicks
  generalize R / g = B
  induction B with
  | zero => simp
  | succ B ih =>
    rw [List.range_succ, List.flatMap_append, ih, Nat.succ_mul, List.range_add, List.map_append, List.map_map]
    congr 1
    simp only [List.flatMap_cons, List.flatMap_nil, List.append_nil]
    refine List.map_congr_left fun j hj => ?_
    have hj := List.mem_range.1 hj
    simp only [Function.comp_apply]
    rw [Nat.mul_comm B g, Nat.mul_add_div hg, Nat.mul_add_mod, Nat.div_eq_of_lt hj, Nat.mod_eq_of_lt hj, Nat.add_zero]

/-- The value of row `i`, channel `l`. -/
noncomputable def barValue {R L : ℕ} (x : Matrix (Fin R) (Fin L) ℝ) (todb : Bool) (i l : ℕ) : ℝ :=
  if h : i < R ∧ l < L then (if todb then 20 * logb 10 |x ⟨i, h.1⟩ ⟨l, h.2⟩| else x ⟨i, h.1⟩ ⟨l, h.2⟩) else 0

/-- All drawn cells: those of the rows up to the last full group. -/
theorem shBar_eq {R L : ℕ} (x : Matrix (Fin R) (Fin L) ℝ) (todb : Bool) (g : ℕ) (hg : 0 < g) :
    shBar x todb g = .ok ((List.range (R / g * g)).map fun i => ((i / g : ℕ) : ℝ) + barOffset g (i % g),
      (List.range (R / g * g)).flatMap fun i => (List.range L).map fun l =>
        { x := ((i / g : ℕ) : ℝ) + barOffset g (i % g), channel := l, value := barValue x todb i l },
      (List.range ((shOrder L) + 1).toNat).map fun n => n ^ 2) := by
  unfold shBar
  rw [if_neg hg.ne']
  simp only [barTicks_eq R g hg]
  congr 2
  congr 1
  rw [← List.map_id (List.range (R / g * g)), List.map_id]
  have hz : ∀ (n : ℕ) (f : ℕ → ℝ), ((List.range n).map f).zipIdx = (List.range n).map fun i => (f i, i) := by
    intro n f
    apply List.ext_getElem
    · simp
    · intro i _ _; simp
  rw [hz, List.flatMap_map]
  rfl

/-- C126: if the rows fill their groups, every row and channel is drawn exactly once with its value; row `i` at the tick of group `i / g`, member `i % g`.
Missing: other numbers of rows, see `C126_rows_fail`. -/
theorem C126_cells_partial {R L : ℕ} (x : Matrix (Fin R) (Fin L) ℝ) (todb : Bool) (g : ℕ) (hg : 0 < g) (hR : g ∣ R) :
    ∃ ticks cells ys, shBar x todb g = .ok (ticks, cells, ys) ∧ ticks.length = R ∧
      cells = (List.range R).flatMap fun i => (List.range L).map fun l => { x := ticks.getD i 0, channel := l, value := barValue x todb i l } := by
  have e : R / g * g = R := Nat.div_mul_cancel hR
  refine ⟨_, _, _, shBar_eq x todb g hg, by simp [e], ?_⟩
  rw [e]
  refine List.flatMap_congr fun i hi => ?_
  refine List.map_congr_left fun l _ => ?_
  have hi := List.mem_range.1 hi
  simp [List.getD_eq_getElem?_getD, hi]

/-- `C126_cells_partial` for four rows in groups of two. -/
example (x : Matrix (Fin 4) (Fin 3) ℝ) : ∃ ticks cells ys, shBar x true 2 = .ok (ticks, cells, ys) ∧ ticks.length = 4 := by
  obtain ⟨t, c, y, h1, h2, -⟩ := C126_cells_partial x true 2 (by norm_num) (by norm_num)
  exact ⟨t, c, y, h1, h2⟩

/-- C126: the ticks increase strictly from row to row, each within a quarter of the number of its group. -/
theorem C126_ticks (g i k : ℕ) (hg : 0 < g) (hik : i < k) :
    ((i / g : ℕ) : ℝ) + barOffset g (i % g) < ((k / g : ℕ) : ℝ) + barOffset g (k % g) ∧ |barOffset g (i % g)| ≤ 0.25 := by
  have hoff : ∀ j, j < g → -0.25 ≤ barOffset g j ∧ barOffset g j ≤ 0.25 := by
    intro j hj
    unfold barOffset
    split
    · norm_num
    · have h2 : (1 : ℝ) ≤ (g : ℝ) - 1 := by
        have : 2 ≤ g := by omega
        have : (2 : ℝ) ≤ g := by exact_mod_cast this
        linarith
      have hj' : (j : ℝ) ≤ (g : ℝ) - 1 := by
        have : j + 1 ≤ g := hj
        have : (j : ℝ) + 1 ≤ g := by exact_mod_cast this
        linarith
      have h3 : (j : ℝ) * (0.5 / ((g : ℝ) - 1)) ≤ 0.5 := by
        rw [← mul_div_assoc, div_le_iff₀ (by linarith)]
        nlinarith
      have h4 : 0 ≤ (j : ℝ) * (0.5 / ((g : ℝ) - 1)) := mul_nonneg (Nat.cast_nonneg _) (div_nonneg (by norm_num) (by linarith))
      constructor <;> linarith
  have hi := hoff _ (Nat.mod_lt i hg)
  have hk := hoff _ (Nat.mod_lt k hg)
  refine ⟨?_, abs_le.2 ⟨hi.1, hi.2⟩⟩
  rcases Nat.lt_or_ge (i / g) (k / g) with hlt | hge
  · have : ((i / g : ℕ) : ℝ) + 1 ≤ ((k / g : ℕ) : ℝ) := by exact_mod_cast hlt
    linarith [hi.2, hk.1]
  · have heq : i / g = k / g := le_antisymm (Nat.div_le_div_right hik.le) hge
    have hm : i % g < k % g := by
      have h1 := Nat.div_add_mod i g
      have h2 := Nat.div_add_mod k g
      rw [heq] at h1
      omega
    have hg1 : g ≠ 1 := by
      rintro rfl
      simp [Nat.mod_one] at hm
    rw [heq]
    have h2 : (0 : ℝ) < (g : ℝ) - 1 := by
      have : 2 ≤ g := by omega
      have : (2 : ℝ) ≤ g := by exact_mod_cast this
      linarith
    unfold barOffset
    rw [if_neg hg1, if_neg hg1]
    have : ((i % g : ℕ) : ℝ) < ((k % g : ℕ) : ℝ) := by exact_mod_cast hm
    have := mul_lt_mul_of_pos_right this (div_pos (by norm_num : (0 : ℝ) < 0.5) h2)
    linarith

/-- `C126_ticks` for neighbours in different groups. -/
example : ((1 / 2 : ℕ) : ℝ) + barOffset 2 (1 % 2) < ((2 / 2 : ℕ) : ℝ) + barOffset 2 (2 % 2) := (C126_ticks 2 1 2 (by norm_num) (by norm_num)).1

/-- The array that is zero but for its last row. -/
def lastRow (R L : ℕ) : Matrix (Fin R) (Fin L) ℝ := fun i _ => if (i : ℕ) + 1 = R then 1 else 0

/-- C126: for every other number of rows the last row is not drawn: an array that is zero but for its last row is drawn as zero. -/
theorem C126_rows_fail {R L : ℕ} (g : ℕ) (hg : 0 < g) (hR : ¬ g ∣ R) (ticks : List ℝ) (cells : List BarCell) (ys : List ℕ)
    (h : shBar (lastRow R L) false g = .ok (ticks, cells, ys)) : ticks.length < R ∧ ∀ c ∈ cells, c.value = 0 := by
  rw [shBar_eq _ _ g hg] at h
  obtain ⟨rfl, h2⟩ := Prod.mk.inj (Except.ok.inj h)
  obtain ⟨rfl, rfl⟩ := Prod.mk.inj h2
  have hlt : R / g * g < R := by
    have h1 := Nat.div_add_mod R g
    have h2 : R % g ≠ 0 := fun h => hR (Nat.dvd_of_mod_eq_zero h)
    rw [Nat.mul_comm]
    omega
  refine ⟨by simpa using hlt, fun c hc => ?_⟩
  obtain ⟨i, hi, hc⟩ := List.mem_flatMap.1 hc
  obtain ⟨l, hl, rfl⟩ := List.mem_map.1 hc
  have hi := List.mem_range.1 hi
  simp only [barValue, lastRow]
  split
  · rw [if_neg (by simp)]
    rw [if_neg]
    omega
  · rfl

/-- `C126_rows_fail` for three rows in groups of two: the third row, the only one that is not zero, is not drawn. -/
example : ∃ ticks cells ys, shBar (lastRow 3 1) false 2 = .ok (ticks, cells, ys) ∧ ticks.length < 3 := by
  have h : ∃ r, shBar (lastRow 3 1) false 2 = .ok r := by
    unfold shBar
    simp
  obtain ⟨⟨t, c, y⟩, h⟩ := h
  exact ⟨t, c, y, h, (C126_rows_fail 2 (by norm_num) (by decide) t c y h).1⟩

/-- C126: no groups at all are rejected. -/
theorem C126_groups {R L : ℕ} (x : Matrix (Fin R) (Fin L) ℝ) (todb : Bool) : shBar x todb 0 = .error .zeroDivisionError := rfl

example : ¬ 2 ∣ 3 := by decide

/-! ### C127 -/

/-- C127: each surface point lies in its direction at the distance of the magnitude of the function, coloured by its phase. -/
theorem C127_points (grid : List (ℝ × ℝ)) (t : Option Bool) (F : Coeffs) : (shCoeffs grid t F).length = grid.length ∧
    ∀ (i : ℕ) (hg : i < grid.length) (hs : i < (shCoeffs grid t F).length),
      let f := shFunction (match t with | some b => b | none => F.isComplex) F.F grid[i].1 grid[i].2
      let p := (shCoeffs grid t F)[i]
      p.1.1 = ‖f‖ * (dirVec grid[i].1 grid[i].2 0) ∧ p.1.2.1 = ‖f‖ * (dirVec grid[i].1 grid[i].2 1) ∧ p.1.2.2 = ‖f‖ * (dirVec grid[i].1 grid[i].2 2) ∧
        p.1.1 ^ 2 + p.1.2.1 ^ 2 + p.1.2.2 ^ 2 = ‖f‖ ^ 2 ∧ (‖f‖ : ℂ) * Complex.exp (p.2 * Complex.I) = f := by
  refine ⟨by simp [shCoeffs], fun i hg hs => ?_⟩
  have hty : shTypeOf t F = (match t with | some b => b | none => F.isComplex) := by cases t <;> rfl
  simp only [shCoeffs, List.getElem_map, hty, surfacePoint, sph2cart, dirVec]
  generalize shFunction _ F.F grid[i].1 grid[i].2 = f
  refine ⟨by simp; ring, by simp; ring, by simp, ?_, Complex.norm_mul_exp_arg_mul_I f⟩
  have := sin_sq_add_cos_sq grid[i].1
  have h2 := sin_sq_add_cos_sq grid[i].2
  calc _ = ‖f‖ ^ 2 * ((sin grid[i].1 ^ 2 + cos grid[i].1 ^ 2) * sin grid[i].2 ^ 2 + cos grid[i].2 ^ 2) := by ring
    _ = _ := by rw [this, one_mul, h2, mul_one]

/-- C127: real coefficients in real harmonics give a real function, its phase is zero or π. -/
theorem C127_real (F : List ℝ) (azi zen : ℝ) :
    ∃ v : ℝ, shFunction false (F.map Complex.ofReal) azi zen = v ∧ (Complex.arg (v : ℂ) = 0 ∨ Complex.arg (v : ℂ) = π) := by
  set G := F.map Complex.ofReal with hG
  refine ⟨∑ q : Fin (((shOrder G.length).toNat + 1) ^ 2), shVec (shOrder G.length).toNat azi zen q * F.getD q 0, ?_, ?_⟩
  · unfold shFunction
    simp only
    push_cast
    refine Finset.sum_congr rfl fun q _ => ?_
    congr 1
    simp only [hG, List.getD_eq_getElem?_getD, List.getElem?_map]
    cases F[(q : ℕ)]? <;> simp
  · generalize (∑ q : Fin (((shOrder G.length).toNat + 1) ^ 2), shVec (shOrder G.length).toNat azi zen q * F.getD q 0) = v
    rcases le_or_gt 0 v with h | h
    · left; exact Complex.arg_ofReal_of_nonneg h
    · right; exact Complex.arg_ofReal_of_neg h

theorem shFunction_order (F : List ℂ) (N : ℕ) (hN : F.length = (N + 1) ^ 2) (azi zen : ℝ) :
    shFunction false F azi zen = ∑ q : Fin ((N + 1) ^ 2), (shVec N azi zen q : ℂ) * F.getD q 0 ∧
      shFunction true F azi zen = ∑ q : Fin ((N + 1) ^ 2), shVecC N azi zen q * F.getD q 0 := by
  unfold shFunction
  rw [hN, shOrder_square]
  exact ⟨rfl, rfl⟩

/-- C127: the drawn function of `(N+1)²` coefficients is their inverse transform. -/
theorem C127_inverse {N : ℕ} (F : Fin ((N + 1) ^ 2) → ℂ) (azi zen : ℝ) :
    inverseShtC (fun q (_ : Fin 1) => F q) (fun _ : Fin 1 => azi) (fun _ => zen) none = .ok (fun _ _ => shFunction true (List.ofFn F) azi zen) := by
  rw [(shFunction_order (List.ofFn F) N (by simp) azi zen).2]
  refine (inverseShtC_eq (N := N) (S := 1) (Q := 1) (fun q _ => F q) _ _ none (.inl rfl)).trans ?_
  congr 1
  funext a b
  refine (Matrix.mul_apply).trans (Finset.sum_congr rfl fun q _ => ?_)
  refine congrArg₂ (· * ·) rfl ?_
  have := q.2
  simp [List.getD_eq_getElem?_getD]

/-- C127: the overlay draws what `sh_coeffs` draws for each entry, if the type is given or all entries are of one type.  Missing: mixed types, see
`C127_overlay_fails`. -/
theorem C127_overlay_partial (grid : List (ℝ × ℝ)) (t : Option Bool) (Fs : List Coeffs)
    (h : t ≠ none ∨ ∀ F ∈ Fs, ∀ G ∈ Fs, F.isComplex = G.isComplex) : shOverlay grid t Fs = Fs.map fun F => (shCoeffs grid t F).map Prod.fst := by
  have key : ∀ (b : Bool) (Fs : List Coeffs), shOverlay grid (some b) Fs = Fs.map fun F => (shCoeffs grid (some b) F).map Prod.fst := by
    intro b Fs
    induction Fs with
    | nil => rfl
    | cons F Fs ih =>
      rw [shOverlay, show shTypeOf (some b) F = b from rfl, ih]; rfl
  cases t with
  | some b => exact key b Fs
  | none =>
    have h := h.resolve_left (fun h => h rfl)
    cases Fs with
    | nil => rfl
    | cons F Fs =>
      rw [shOverlay, key]
      rw [List.map_cons]
      refine congrArg₂ List.cons rfl (List.map_congr_left fun G hG => ?_)
      have : F.isComplex = G.isComplex := h F (by simp) G (by simp [hG])
      unfold shCoeffs
      rw [show shTypeOf (some (shTypeOf none F)) G = shTypeOf none G from this]

/-- `C127_overlay_partial` for two real functions, and for a given type. -/
example (grid : List (ℝ × ℝ)) : shOverlay grid none [⟨false, [1]⟩, ⟨false, [2]⟩] = [⟨false, [1]⟩, ⟨false, [2]⟩].map fun F => (shCoeffs grid none F).map Prod.fst :=
  C127_overlay_partial grid none _ (.inr (by simp))

example (grid : List (ℝ × ℝ)) : shOverlay grid (some true) [⟨false, [1]⟩, ⟨true, [2]⟩] = [⟨false, [1]⟩, ⟨true, [2]⟩].map fun F => (shCoeffs grid (some true) F).map Prod.fst :=
  C127_overlay_partial grid (some true) _ (.inl (by simp))

theorem overlay_values : shFunction false [0, 1, 0, 0] 0 (π / 2) = 0 ∧ shFunction true [0, 1, 0, 0] 0 (π / 2) ≠ 0 := by
  obtain ⟨h1, h2⟩ := shFunction_order [0, 1, 0, 0] 1 rfl 0 (π / 2)
  have hs : sphHarmNonneg 1 1 0 (π / 2) = ((-√((2 * 1 + 1) / (4 * π) * (1 / 2)) : ℝ) : ℂ) := by
    unfold sphHarmNonneg assocLegendre
    simp [legPoly, Nat.factorial]
  have hq : ∀ (f : Fin 4 → ℂ), ∑ q : Fin 4, f q * ([0, 1, 0, 0] : List ℂ).getD q 0 = f 1 := by
    intro f
    simp [Fin.sum_univ_four]
  have hd : acnDegree 1 = -1 := by decide
  have ho : acnOrder 1 = 1 := by decide
  constructor
  · rw [h1]
    refine (hq fun q => (shVec 1 0 (π / 2) q : ℂ)).trans ?_
    show ((realSH (acnOrder 1) (acnDegree 1) 0 (π / 2) : ℝ) : ℂ) = 0
    rw [hd, ho]
    unfold realSH sphHarm
    simp [hs]
  · rw [h2]
    refine (hq fun q => shVecC 1 0 (π / 2) q).trans_ne ?_
    show sphHarm (acnDegree 1) (acnOrder 1) 0 (π / 2) ≠ 0
    rw [hd, ho]
    unfold sphHarm
    rw [if_neg (by norm_num)]
    have : (0 : ℝ) < √((2 * 1 + 1) / (4 * π) * (1 / 2)) := Real.sqrt_pos.2 (by positivity)
    simp only [Int.natAbs_neg, Int.natAbs_one, hs, Complex.conj_ofReal]
    refine mul_ne_zero (by norm_num) ?_
    exact_mod_cast (neg_ne_zero.2 this.ne')

/-- C127: after complex coefficients, real ones are drawn with complex harmonics: sin(azimuth) sin(zenith) vanishes in front, the overlaid surface does not. -/
theorem C127_overlay_fails (F : List ℂ) : ∃ G : Coeffs, G.isComplex = false ∧ shCoeffs [(0, π / 2)] none G = [((0, 0, 0), 0)] ∧
    ∃ s x y z, shOverlay [(0, π / 2)] none [⟨true, F⟩, G] = [s, [(x, y, z)]] ∧ x ≠ 0 := by
  obtain ⟨h1, h2⟩ := overlay_values
  refine ⟨⟨false, [0, 1, 0, 0]⟩, rfl, ?_, _, _, _, _, rfl, ?_⟩
  · simp [shCoeffs, shTypeOf, surfacePoint, h1, sph2cart]
  · simp [shTypeOf, h2]

/-- C127: two or more entries are drawn side by side, each as `sh_coeffs` draws it, with its title; a list of titles that is too short raises `IndexError`. -/
theorem C127_subplot_partial (grid : List (ℝ × ℝ)) (t : Option Bool) (Fs : List Coeffs) (h : 2 ≤ Fs.length) (titles : List String) :
    shSubplot grid t Fs none none = .ok (Fs.map fun F => (shCoeffs grid t F, none)) ∧
    (titles.length = Fs.length → shSubplot grid t Fs (some titles) none = .ok ((Fs.zip titles).map fun p => (shCoeffs grid t p.1, some p.2))) ∧
    (titles.length < Fs.length → shSubplot grid t Fs (some titles) none = .error .indexError) := by
  have hne : Fs ≠ [] := by rintro rfl; simp at h
  have hd : ∀ ti, shSubplot grid t Fs ti none = shSubplot.draw grid t Fs ti Fs.length := by
    intro ti
    unfold shSubplot
    rw [if_neg hne]
    simp only
    rw [if_neg (by omega)]
  have hok : ∀ {α : Type} (n : ℕ) (f : ℕ → Py α) (g : ℕ → α), (∀ i < n, f i = .ok (g i)) → (List.range n).mapM f = .ok ((List.range n).map g) := by
    intro α n f g hf
    have : ∀ l : List ℕ, (∀ i ∈ l, f i = .ok (g i)) → l.mapM f = .ok (l.map g) := by
      intro l
      induction l with
      | nil => intro _; rfl
      | cons a l ih =>
        intro hl
        rw [List.mapM_cons, hl a (by simp), ih fun i hi => hl i (by simp [hi])]
        rfl
    exact this _ fun i hi => hf i (List.mem_range.1 hi)
  simp only [hd]
  unfold shSubplot.draw
  refine ⟨?_, fun ht => ?_, fun ht => ?_⟩
  · rw [hok Fs.length _ (fun i => ((Fs.map fun F => (shCoeffs grid t F, (none : Option String))).getD i ([], none)))]
    · congr 1
      apply List.ext_getElem
      · simp
      · intro i h1 h2
        have : i < Fs.length := by simpa using h1
        simp [List.getD_eq_getElem?_getD, this]
    · intro i hi
      simp [List.getD_eq_getElem?_getD, hi]
  · rw [hok Fs.length _ (fun i => (((Fs.zip titles).map fun p => (shCoeffs grid t p.1, some p.2)).getD i ([], none)))]
    · congr 1
      apply List.ext_getElem
      · simp [ht]
      · intro i h1 h2
        have h3 : i < Fs.length := by simpa using h1
        have h4 : i < titles.length := by omega
        simp [List.getD_eq_getElem?_getD, h3, h4]
    · intro i hi
      have h4 : i < titles.length := by omega
      simp [List.getD_eq_getElem?_getD, hi, h4]
  · have : ∀ (l : List ℕ) (f : ℕ → Py (List ((ℝ × ℝ × ℝ) × ℝ) × Option String)), (∀ i ∈ l, (∃ v, f i = .ok v) ∨ f i = .error .indexError) →
        (∃ i ∈ l, f i = .error .indexError) → l.mapM f = .error .indexError := by
      intro l f
      induction l with
      | nil => rintro _ ⟨i, hi, _⟩; cases hi
      | cons a l ih =>
        intro hl hex
        rw [List.mapM_cons]
        rcases hl a (by simp) with ⟨v, hv⟩ | he
        · rw [hv]
          obtain ⟨i, hi, hie⟩ := hex
          rcases List.mem_cons.1 hi with rfl | hi
          · rw [hv] at hie; cases hie
          · have := ih (fun j hj => hl j (by simp [hj])) ⟨i, hi, hie⟩
            show (List.mapM f l).bind _ = _
            rw [this]; rfl
        · rw [he]; rfl
    refine this _ _ ?_ ⟨titles.length, List.mem_range.2 ht, ?_⟩
    · intro i hi
      have hi := List.mem_range.1 hi
      simp only [List.getElem?_eq_getElem hi]
      cases titles[i]? with
      | none => right; rfl
      | some s => left; exact ⟨_, rfl⟩
    · simp only [List.getElem?_eq_getElem ht, List.getElem?_eq_none le_rfl]

/-- `C127_subplot_partial` for two functions and one title. -/
example (grid : List (ℝ × ℝ)) : shSubplot grid none [⟨false, [1]⟩, ⟨true, [2]⟩] (some ["a"]) none = .error .indexError :=
  (C127_subplot_partial grid none [⟨false, [1]⟩, ⟨true, [2]⟩] (by simp) ["a"]).2.2 (by simp)

/-- C127: a single entry cannot be drawn by `sh_coeffs_subplot` (`TypeError`), though it has one axis and its own title. -/
theorem C127_subplot_fails (grid : List (ℝ × ℝ)) (t : Option Bool) (F : Coeffs) (titles : Option (List String)) :
    shSubplot grid t [F] titles none = .error .typeError := rfl

/-- C127: axes that are given are filled one after the other with the first entries; an axis without an entry raises `IndexError`. -/
theorem C127_axes (grid : List (ℝ × ℝ)) (t : Option Bool) (Fs : List Coeffs) (h : Fs ≠ []) (m : ℕ) :
    (m ≤ Fs.length → shSubplot grid t Fs none (some m) = .ok ((Fs.take m).map fun F => (shCoeffs grid t F, none))) ∧
    (Fs.length < m → shSubplot grid t Fs none (some m) = .error .indexError) := by
  have hd : shSubplot grid t Fs none (some m) = shSubplot.draw grid t Fs none m := by
    unfold shSubplot
    rw [if_neg h]
  rw [hd]
  have hstep : ∀ k, k ≤ Fs.length → shSubplot.draw grid t Fs none k = .ok ((Fs.take k).map fun F => (shCoeffs grid t F, none)) := by
    intro k
    induction k with
    | zero => intro _; rfl
    | succ k ih =>
      intro hk
      have ih := ih (by omega)
      unfold shSubplot.draw at ih ⊢
      rw [List.range_succ, List.mapM_append, ih]
      have hlt : k < Fs.length := by omega
      simp only [List.mapM_cons, List.mapM_nil, List.getElem?_eq_getElem hlt, List.take_succ_eq_append_getElem hlt, List.map_append]
      rfl
  refine ⟨hstep m, fun hm => ?_⟩
  obtain ⟨r, rfl⟩ := Nat.exists_eq_add_of_lt hm
  have e := hstep _ le_rfl
  unfold shSubplot.draw at e ⊢
  rw [show Fs.length + r + 1 = Fs.length + (1 + r) by ring, List.range_add, List.mapM_append, e, Nat.add_comm 1 r, List.range_succ_eq_map]
  simp only [List.map_cons, List.mapM_cons, Nat.add_zero, List.getElem?_eq_none (le_refl Fs.length)]
  rfl

/-- Two of three entries on two given axes. -/
example (grid : List (ℝ × ℝ)) : shSubplot grid none [⟨false, [1]⟩, ⟨false, [2]⟩, ⟨true, [3]⟩] none (some 2)
    = .ok [(shCoeffs grid none ⟨false, [1]⟩, none), (shCoeffs grid none ⟨false, [2]⟩, none)] :=
  (C127_axes grid none _ (by simp) 2).1 (by simp)

end Verif.Props
