import Verif.Props.Allrap2

/-!
C104: VBAP with `retain_outside`: rendering on the hull that has been closed with imaginary loudspeakers.
-/

namespace Verif.Props
open Real Verif.Sph Verif.Utils Verif.Decoder

/-- The Ambisonic hull as `ambisonics_setup(update_hull=True)` makes it: the last `M` of its loudspeakers are the imaginary ones. -/
def ImaginaryLast {L : ℕ} (am : Ambi L) : Prop := am.imaginary = some ((List.finRange am.M).map (Fin.natAdd L))

theorem finRange_split (L M : ℕ) : List.finRange (L + M) = (List.finRange L).map (Fin.castAdd M) ++ (List.finRange M).map (Fin.natAdd L) := by
  rw [List.finRange, List.ofFn_add]
  simp only [List.finRange, List.map_ofFn]
  rfl

theorem npDelete_last {L M : ℕ} (row : Fin (L + M) → ℝ) :
    npDelete row ((List.finRange M).map (Fin.natAdd L)) = List.ofFn fun l : Fin L => row (Fin.castAdd M l) := by
  unfold npDelete
  rw [finRange_split, List.filter_append, List.filter_eq_self.2, List.filter_eq_nil_iff.2]
  · rw [List.append_nil, List.map_map, List.finRange, List.map_ofFn]
    rfl
  · intro l hl
    simp only [decide_eq_true_eq, not_not]
    exact hl
  · intro l hl
    obtain ⟨i, _, rfl⟩ := List.mem_map.1 hl
    simp only [decide_eq_true_eq, List.mem_map, not_exists, not_and]
    intro j _ h
    have := congrArg Fin.val h
    simp at this
    have := i.2
    omega

/-- C104: the row of a source has one gain per loudspeaker of the setup: those that render the source on the closed hull, without the
gains of the imaginary loudspeakers. Only the inverses stored with the closed hull change. -/
theorem C104_retain {L : ℕ} (lstsq : Mat3 → Mat3) (hl : LstsqSpec lstsq) {p : ℝ} (hp : 0 < p) (s : Setup L) (am : Ambi L)
    (ha : s.ambi = some am) (him : ImaginaryLast am) (hc : CacheOk lstsq am.hull) (hinj : ∀ f ∈ am.hull.valid, Function.Injective f)
    (src : List Vec3) :
    ∃ rows s' am', vbap lstsq p src none true s = (.ok rows, s') ∧ rows.length = src.length ∧
      (∀ (i : ℕ) (v : Vec3), src[i]? = some v → ∃ g : Fin (L + am.M) → ℝ,
        rows[i]? = some (List.ofFn fun l : Fin L => am.hull.d (Fin.castAdd am.M l) ^ am.hull.a * g (Fin.castAdd am.M l)) ∧
        (g = 0 ∨ ∃ f ∈ am.hull.valid, RendersOn p am.hull.points f v g)) ∧
      s'.toHull = s.toHull ∧ s'.kernel = s.kernel ∧ s'.ambi = some am' ∧ ∃ inv, am' = { am with hull := { am.hull with invBase := some inv } } ∧
        CacheOk lstsq { am.hull with invBase := some inv } := by
  obtain ⟨rows, h1, h2, h3⟩ := C29_vbap lstsq hl hp am.hull hc hinj src
  have hv : vbap lstsq p src none true s = (.ok (rows.map fun row => npDelete row ((List.finRange am.M).map (Fin.natAdd L))),
      { s with ambi := some { am with hull := (vbapHull lstsq p src none am.hull).2 } }) := by
    unfold vbap
    unfold ImaginaryLast at him
    simp only [if_true, Option.isSome_none, Bool.false_eq_true, if_false, ha, him, h1]
    rfl
  refine ⟨_, _, _, hv, by simp [h2], fun i v hi => ?_, rfl, rfl, rfl, invertTriplets lstsq am.hull.valid am.hull.points, ?_, ?_⟩
  · have hlt : i < rows.length := by rw [h2]; exact (List.getElem?_eq_some_iff.1 hi).1
    obtain ⟨g, hg, hcase⟩ := h3 i v rows[i] hi (List.getElem?_eq_getElem hlt)
    refine ⟨g, ?_, hcase⟩
    rw [List.getElem?_map, List.getElem?_eq_getElem hlt, Option.map_some, npDelete_last, hg]
  · unfold vbapHull
    simp only [Option.getD_none, vbase_ok hc]
  · intro b hb
    exact (Option.some.inj hb).symm

/-- C30: with several sources every row is the one that the source gets on its own. -/
theorem C30_each {L : ℕ} (lstsq : Mat3 → Mat3) {p : ℝ} (hp : 0 < p) (h : Hull L) (hc : CacheOk lstsq h)
    (hinj : ∀ f ∈ h.valid, Function.Injective f) (src : List Vec3) :
    ∃ rows, (vbapHull lstsq p src none h).1 = .ok rows ∧ rows.length = src.length ∧
      ∀ (i : ℕ) (v : Vec3), src[i]? = some v → ∃ row, (vbapHull lstsq p [v] none h).1 = .ok [row] ∧ rows[i]? = some row := by
  have hrow : ∀ v : Vec3, ∃ g, vbapRow h.valid (invertTriplets lstsq h.valid h.points) p v = .ok g := by
    intro v
    rcases row_cases lstsq hp h.points h.valid hinj v with ⟨h1, _⟩ | ⟨k, f, g, _, h1, _⟩
    · exact ⟨0, h1⟩
    · exact ⟨g, h1⟩
  obtain ⟨ys, h1, h2, h3⟩ := mapM_ok (vbapRow h.valid (invertTriplets lstsq h.valid h.points) p) src fun v _ => hrow v
  refine ⟨ys.map fun r l => h.d l ^ h.a * r l, ?_, by simp [h2], fun i v hi => ?_⟩
  · unfold vbapHull vbapSerial
    simp only [Option.getD_none, vbase_ok hc, h1]
    rfl
  · have hlt : i < ys.length := by rw [h2]; exact (List.getElem?_eq_some_iff.1 hi).1
    refine ⟨fun l => h.d l ^ h.a * ys[i] l, ?_, ?_⟩
    · have hg := h3 i v ys[i] hi (List.getElem?_eq_getElem hlt)
      unfold vbapHull vbapSerial
      simp only [Option.getD_none, vbase_ok hc, List.mapM_cons, List.mapM_nil, hg]
      rfl
    · rw [List.getElem?_map, List.getElem?_eq_getElem hlt]; rfl

/-- C104: every row holds the gains that the real loudspeakers get from `vbap` on the closed hull, so that a source in the cone of one of
its faces is found (C30). -/
theorem C104_closed_hull {L : ℕ} (lstsq : Mat3 → Mat3) {p : ℝ} (hp : 0 < p) (s : Setup L) (am : Ambi L)
    (ha : s.ambi = some am) (him : ImaginaryLast am) (hc : CacheOk lstsq am.hull) (hinj : ∀ f ∈ am.hull.valid, Function.Injective f)
    (src : List Vec3) :
    ∃ rows, (vbap lstsq p src none true s).1 = .ok rows ∧ rows.length = src.length ∧
      ∀ (i : ℕ) (v : Vec3), src[i]? = some v → ∃ row, (vbapHull lstsq p [v] none am.hull).1 = .ok [row] ∧
        rows[i]? = some (List.ofFn fun l : Fin L => row (Fin.castAdd am.M l)) := by
  obtain ⟨rows, h1, h2, h3⟩ := C30_each lstsq hp am.hull hc hinj src
  have hv : vbap lstsq p src none true s = (.ok (rows.map fun row => npDelete row ((List.finRange am.M).map (Fin.natAdd L))),
      { s with ambi := some { am with hull := (vbapHull lstsq p src none am.hull).2 } }) := by
    unfold vbap
    unfold ImaginaryLast at him
    simp only [if_true, Option.isSome_none, Bool.false_eq_true, if_false, ha, him, h1]
    rfl
  refine ⟨_, by rw [hv], by simp [h2], fun i v hi => ?_⟩
  obtain ⟨row, hr, he⟩ := h3 i v hi
  exact ⟨row, hr, by rw [List.getElem?_map, he, Option.map_some, npDelete_last]⟩

/-- C104: on a hull with the real loudspeakers at unit distance, the energy of the gains is at most one, and it is one exactly when the
imaginary loudspeakers got nothing; otherwise the source fades towards the hole. -/
theorem C104_energy {L : ℕ} (lstsq : Mat3 → Mat3) (hl : LstsqSpec lstsq) (s : Setup L) (am : Ambi L)
    (ha : s.ambi = some am) (him : ImaginaryLast am) (hc : CacheOk lstsq am.hull) (hinj : ∀ f ∈ am.hull.valid, Function.Injective f)
    (hd : ∀ l, am.hull.d (Fin.castAdd am.M l) = 1) (src : List Vec3) :
    ∃ rows, (vbap lstsq 2 src none true s).1 = .ok rows ∧ ∀ (i : ℕ) (v : Vec3), src[i]? = some v → ∃ (row : List ℝ) (g : Fin (L + am.M) → ℝ),
      rows[i]? = some row ∧ (row.map (· ^ 2)).sum ≤ 1 ∧
      (g = 0 ∨ ∃ f ∈ am.hull.valid, RendersOn 2 am.hull.points f v g ∧
        (row.map (· ^ 2)).sum + ∑ m, g (Fin.natAdd L m) ^ 2 = 1) := by
  obtain ⟨rows, s', am', h1, h2, h3, _⟩ := C104_retain lstsq hl (p := 2) (by norm_num) s am ha him hc hinj src
  refine ⟨rows, by rw [h1], fun i v hi => ?_⟩
  obtain ⟨g, hg, hcase⟩ := h3 i v hi
  have hrow : ((List.ofFn fun l : Fin L => am.hull.d (Fin.castAdd am.M l) ^ am.hull.a * g (Fin.castAdd am.M l)).map (· ^ 2)).sum
      = ∑ l : Fin L, g (Fin.castAdd am.M l) ^ 2 := by
    rw [List.map_ofFn, List.sum_ofFn]
    refine Finset.sum_congr rfl fun l _ => ?_
    simp [hd]
  refine ⟨_, g, hg, ?_, ?_⟩
  · rw [hrow]
    rcases hcase with rfl | ⟨f, hf, hR⟩
    · simp
    · rw [← npNorm_two_one hR.norm, Fin.sum_univ_add]
      exact le_add_of_nonneg_right (Finset.sum_nonneg fun _ _ => sq_nonneg _)
  · rw [hrow]
    rcases hcase with h | ⟨f, hf, hR⟩
    · exact .inl h
    · exact .inr ⟨f, hf, hR, by rw [← npNorm_two_one hR.norm, Fin.sum_univ_add]⟩

/-- C104: with simplices given the call is refused (`AssertionError`), on a setup without imaginary loudspeakers too (`ValueError`); the
setup stays as it is. -/
theorem C104_reject {L : ℕ} (lstsq : Mat3 → Mat3) (p : ℝ) (src : List Vec3) (s : Setup L) (am : Ambi L) :
    (∀ valid, vbap lstsq p src (some valid) true s = (.error .assertionError, s)) ∧
    (s.ambi = none → vbap lstsq p src none true s = (.error .valueError, s)) ∧
    (s.ambi = some am → am.imaginary = none → vbap lstsq p src none true s = (.error .valueError, s)) := by
  refine ⟨fun valid => ?_, fun h => ?_, fun h h' => ?_⟩ <;> unfold vbap
  · simp
  · simp [h]
  · simp [h, h']

/-- Five loudspeakers at the vertices of the octahedron, the sixth vertex being the imaginary loudspeaker. -/
noncomputable def fiveSetup : Setup 5 :=
  { points := fun l => Oct.pts (Fin.castSucc l), listener := 0, d := fun _ => 1, a := 1, simplices := [], centroids := [], faceAreas := [],
    faceNormals := [], barycenter := 0, encloses := [], valid := [], invBase := none, charOrder := none,
    ambi := some ⟨1, Oct.hull, some [5]⟩, kernel := none }

/-- C104: a source below the horizontal plane. -/
example : ∃ lstsq : Mat3 → Mat3, LstsqSpec lstsq ∧ ∃ rows, (vbap lstsq 2 [![1, 1, -1]] none true fiveSetup).1 = .ok rows ∧
    ∃ row : List ℝ, rows[0]? = some row ∧ (row.map (· ^ 2)).sum ≤ 1 := by
  obtain ⟨lstsq, hl⟩ := exists_lstsq3
  obtain ⟨rows, h1, h2⟩ := C104_energy lstsq hl fiveSetup ⟨1, Oct.hull, some [5]⟩ rfl rfl (oct_cache lstsq) Oct.inj (fun _ => rfl) [![1, 1, -1]]
  obtain ⟨row, g, h3, h4, _⟩ := h2 0 _ rfl
  exact ⟨lstsq, hl, rows, h1, row, h3, h4⟩

/-- C30, C104: several sources on the octahedron. -/
example : ∃ lstsq : Mat3 → Mat3, LstsqSpec lstsq ∧ (∃ rows, (vbapHull lstsq 2 [![1, 0, 0], ![1, 1, -1]] none Oct.hull).1 = .ok rows ∧ rows.length = 2) ∧
    ∃ rows, (vbap lstsq 2 [![1, 0, 0], ![1, 1, -1]] none true fiveSetup).1 = .ok rows ∧ rows.length = 2 := by
  obtain ⟨lstsq, hl⟩ := exists_lstsq3
  obtain ⟨rows, h1, h2, _⟩ := C30_each lstsq (p := 2) (by norm_num) Oct.hull (oct_cache lstsq) Oct.inj [![1, 0, 0], ![1, 1, -1]]
  obtain ⟨rows', h1', h2', _⟩ := C104_closed_hull lstsq (p := 2) (by norm_num) fiveSetup ⟨1, Oct.hull, some [5]⟩ rfl rfl (oct_cache lstsq) Oct.inj
    [![1, 0, 0], ![1, 1, -1]]
  exact ⟨lstsq, hl, ⟨rows, h1, h2⟩, rows', h1', h2'⟩

/-- `C104_retain`: two sources on the octahedron with one imaginary loudspeaker. -/
example : ∃ lstsq : Mat3 → Mat3, LstsqSpec lstsq ∧ ∃ rows s', vbap lstsq 2 [![1, 0, 0], ![1, 1, -1]] none true fiveSetup = (.ok rows, s') ∧ rows.length = 2 ∧
    s'.toHull = fiveSetup.toHull := by
  obtain ⟨lstsq, hl⟩ := exists_lstsq3
  obtain ⟨rows, s', _, h1, h2, -, h3, -⟩ := C104_retain lstsq hl (p := 2) (by norm_num) fiveSetup ⟨1, Oct.hull, some [5]⟩ rfl rfl (oct_cache lstsq) Oct.inj
    [![1, 0, 0], ![1, 1, -1]]
  exact ⟨lstsq, hl, rows, s', h1, h2, h3⟩

end Verif.Props
