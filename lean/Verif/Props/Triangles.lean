import Verif.Proofs.Octahedron

/-!
C35, C36 (`pop_triangles`), C37 (face bookkeeping), C38 (face normals and areas).
-/

namespace Verif.Props
open Real Verif.Sph Verif.Utils Verif.Decoder

/-! ### C37 -/

/-- C37: every face keeps its vertices, the smallest index comes first, and the cyclic order is reversed. -/
theorem C37_sort {L : ℕ} (faces : List (Face L)) :
    (sortVertices faces).length = faces.length ∧
    ∀ (n : ℕ) (f : Face L), faces[n]? = some f → ∃ g : Face L, (sortVertices faces)[n]? = some g ∧ (∀ i, g 0 ≤ f i)
      ∧ ∃ k : Fin 3, ∀ i, g i = f (k - i) := by
  refine ⟨List.length_map _, fun n f hf => ⟨sortFace f, by unfold sortVertices; rw [List.getElem?_map, hf]; rfl, ?_, ?_⟩⟩
  · intro i
    unfold sortFace argmin3
    split_ifs with h1 h2
    · simp only [zero_add]
      match i with
      | 0 => exact h1.2
      | 1 => exact h1.1
      | 2 => exact le_refl _
    · simp only [zero_add]
      match i with
      | 0 => exact h2
      | 1 => exact le_refl _
      | 2 =>
        change f 1 ≤ f 2
        change ¬ (f 2 ≤ f 1 ∧ f 2 ≤ f 0) at h1
        change f 1 ≤ f 0 at h2
        rw [not_and_or, not_le, not_le] at h1
        rcases h1 with h1 | h1
        · exact h1.le
        · exact h2.trans h1.le
    · simp only [zero_add]
      change ¬ (f 2 ≤ f 1 ∧ f 2 ≤ f 0) at h1
      change ¬ f 1 ≤ f 0 at h2
      rw [not_le] at h2
      match i with
      | 0 => exact le_refl _
      | 1 => exact h2.le
      | 2 =>
        change f 0 ≤ f 2
        rw [not_and_or, not_le, not_le] at h1
        rcases h1 with h1 | h1
        · exact h2.le.trans h1.le
        · exact h1.le
  · refine ⟨2 - argmin3 fun i => f (Fin.rev i), fun i => ?_⟩
    unfold sortFace
    simp only
    generalize argmin3 (fun i => f (Fin.rev i)) = k
    congr 1
    revert i k
    decide

theorem count_three {P : Fin 3 → Prop} [DecidablePred P] : ((List.finRange 3).countP (fun i => decide (P i)) == 3) = true ↔ ∀ i, P i := by
  rw [beq_iff_eq]
  have hl : (List.finRange 3).length = 3 := List.length_finRange
  constructor
  · intro h i
    have := List.countP_eq_length.1 (h.trans hl.symm) i (List.mem_finRange i)
    simpa using this
  · intro h
    refine Eq.trans (List.countP_eq_length.2 fun i _ => ?_) hl
    simpa using h i

theorem range_eq_of_subset {L : ℕ} {v s : Face L} (hv : Function.Injective v) (h : ∀ i, ∃ j, s j = v i) : Set.range v = Set.range s := by
  classical
  have h1 : Finset.univ.image v ⊆ Finset.univ.image s := by
    intro x hx
    obtain ⟨i, _, rfl⟩ := Finset.mem_image.1 hx
    obtain ⟨j, hj⟩ := h i
    exact Finset.mem_image.2 ⟨j, Finset.mem_univ _, hj⟩
  have h2 : (Finset.univ.image s).card ≤ (Finset.univ.image v).card := by
    rw [Finset.card_image_of_injective _ hv]; exact Finset.card_image_le
  have h3 := Finset.eq_of_subset_of_card_le h1 h2
  have := congrArg (fun t : Finset (Fin L) => (t : Set (Fin L))) h3
  simpa using this

/-- C37: `is_simplex_valid` compares vertex sets. -/
theorem C37_valid {L : ℕ} (valid : List (Face L)) (hv : ∀ v ∈ valid, Function.Injective v) (s : Face L) :
    isSimplexValid valid s = true ↔ ∃ v ∈ valid, Set.range v = Set.range s := by
  unfold isSimplexValid
  rw [List.any_eq_true]
  constructor
  · rintro ⟨v, hm, h⟩
    exact ⟨v, hm, range_eq_of_subset (hv v hm) (count_three.1 h)⟩
  · rintro ⟨v, hm, h⟩
    refine ⟨v, hm, count_three.2 fun i => ?_⟩
    have : v i ∈ Set.range s := h ▸ ⟨i, rfl⟩
    exact this

example : isSimplexValid Oct.faces ![4, 0, 2] = true ∧ isSimplexValid Oct.faces ![0, 1, 2] = false := by
  refine ⟨(C37_valid _ Oct.inj _).2 ⟨![0, 2, 4], by simp [Oct.faces], ?_⟩, by decide⟩
  ext x
  simp only [Set.mem_range]
  constructor
  · rintro ⟨i, rfl⟩; fin_cases i
    · exact ⟨1, rfl⟩
    · exact ⟨2, rfl⟩
    · exact ⟨0, rfl⟩
  · rintro ⟨i, rfl⟩; fin_cases i
    · exact ⟨2, rfl⟩
    · exact ⟨0, rfl⟩
    · exact ⟨1, rfl⟩

/-! ### C35, C36 -/

/-- What every setup satisfies: the faces have three different vertices and are pairwise different as vertex sets (which is what a
triangulation is), the lists of centroids and normals belong to them, the valid simplices are some of them, and the listener is at
the origin. -/
structure WellFormed {L : ℕ} (h : Hull L) : Prop where
  inj : ∀ f ∈ h.simplices, Function.Injective f
  distinct : h.simplices.Pairwise fun f g => Set.range f ≠ Set.range g
  centroids : h.centroids = calculateCentroids h.points h.simplices
  normals : h.faceNormals = calculateFaceNormals h.points h.simplices
  valid : h.valid.Sublist h.simplices
  listener : h.listener = 0

theorem range_sortFace {L : ℕ} (f : Face L) : Set.range (sortFace f) = Set.range f := by
  have h : ∀ k : Fin 3, Function.Surjective fun i : Fin 3 => Fin.rev (i + k) := by decide
  exact (h (argmin3 fun i => f (Fin.rev i))).range_comp f

theorem inj_sortFace {L : ℕ} (f : Face L) (hf : Function.Injective f) : Function.Injective (sortFace f) := by
  have h : ∀ k : Fin 3, Function.Injective fun i : Fin 3 => Fin.rev (i + k) := by decide
  exact hf.comp (h (argmin3 fun i => f (Fin.rev i)))

/-- A new setup is well-formed if Qhull returns triangles that are pairwise different. -/
theorem wellFormed_new {L : ℕ} (qhull : (L : ℕ) → (Fin L → Vec3) → Py (List (Face L))) (points : Fin L → Vec3) (listener : Vec3) (h : Hull L)
    (hq : ∀ fs, qhull L (fun l => points l - listener) = .ok fs →
      (∀ f ∈ fs, Function.Injective f) ∧ fs.Pairwise fun f g => Set.range f ≠ Set.range g)
    (hh : mkHull qhull points listener = .ok h) : WellFormed h := by
  unfold mkHull at hh
  dsimp only at hh
  cases hf : qhull L (fun l => points l - listener) with
  | error e => rw [hf] at hh; cases hh
  | ok fs =>
    rw [hf] at hh
    cases hh
    obtain ⟨h1, h2⟩ := hq fs hf
    refine ⟨?_, ?_, rfl, rfl, ?_, rfl⟩
    · intro f hfm
      obtain ⟨g, hg, rfl⟩ := List.mem_map.1 hfm
      exact inj_sortFace g (h1 g hg)
    · refine List.pairwise_map.2 (h2.imp fun {f g} hfg => ?_)
      rw [range_sortFace, range_sortFace]; exact hfg
    · show ((_ : List _).map Prod.fst).Sublist _
      have : ∀ (a : List (Face L)) (b : List Vec3), a.length = b.length → (a.zip b).map Prod.fst = a := by
        intro a b hab; exact List.map_fst_zip hab.le
      conv_rhs => rw [← this (sortVertices fs) (calculateCentroids (fun l => points l - listener) (sortVertices fs))
        (by unfold calculateCentroids; rw [List.length_map])]
      exact List.filter_sublist.map _

/-- The documented criteria for a face, stated on the layout. -/
structure Passes {L : ℕ} (h : Hull L) (normal aperture opening : Option ℝ) (blacklist : Option (List ℕ)) (f : Face L) : Prop where
  normal : ∀ l, normal = some l →
    angleBetween (centroid h.points f) (faceNormal h.points (calculateBarycenter h.points) 10e-6 false f) ≤ deg2rad l
  aperture : ∀ l, aperture = some l → ∀ i j, i ≠ j → angleBetween (h.points (f i)) (h.points (f j)) ≤ deg2rad l
  opening : ∀ l, opening = some l → ∀ i j k, i ≠ j → i ≠ k → j ≠ k →
    angleBetween (h.points (f j)) (h.points (f k)) (some (h.points (f i))) ≤ deg2rad l
  blacklist : ∀ bl, blacklist = some bl → ∃ e ∈ bl, ∀ i, (f i : ℕ) ≠ e

theorem angleBetween_zero (u v : Vec3) : angleBetween u v (some 0) = angleBetween u v := by
  unfold angleBetween; simp

theorem angleBetween_comm (u v : Vec3) (w : Option Vec3) : angleBetween u v w = angleBetween v u w := by
  unfold angleBetween
  cases w <;> simp only [dotProduct_comm u v, mul_comm (norm3 u), mul_comm (norm3 (u - _)), dotProduct_comm (u - _)]

theorem not_apertureBad {L : ℕ} (points : Fin L → Vec3) (l : ℝ) (f : Face L) :
    ¬ apertureBad points 0 l f ↔ ∀ i j, i ≠ j → angleBetween (points (f i)) (points (f j)) ≤ deg2rad l := by
  unfold apertureBad
  simp only [angleBetween_zero, not_or, not_lt]
  constructor
  · rintro ⟨h1, h2, h3⟩ i j hij
    match i, j with
    | 0, 0 => exact absurd rfl hij
    | 1, 1 => exact absurd rfl hij
    | 2, 2 => exact absurd rfl hij
    | 0, 1 => exact h1
    | 1, 0 => rw [angleBetween_comm]; exact h1
    | 1, 2 => exact h2
    | 2, 1 => rw [angleBetween_comm]; exact h2
    | 0, 2 => exact h3
    | 2, 0 => rw [angleBetween_comm]; exact h3
  · intro h
    exact ⟨h 0 1 (by decide), h 1 2 (by decide), h 0 2 (by decide)⟩

theorem not_openingBad {L : ℕ} (points : Fin L → Vec3) (l : ℝ) (f : Face L) :
    ¬ openingBad points l f ↔ ∀ i j k, i ≠ j → i ≠ k → j ≠ k →
      angleBetween (points (f j)) (points (f k)) (some (points (f i))) ≤ deg2rad l := by
  unfold openingBad
  simp only [not_or, not_lt]
  constructor
  · rintro ⟨h1, h2, h3⟩ i j k hij hik hjk
    have cases : ∀ i j k : Fin 3, i ≠ j → i ≠ k → j ≠ k → (i, j, k) = (0, 1, 2) ∨ (i, j, k) = (0, 2, 1) ∨ (i, j, k) = (1, 0, 2)
        ∨ (i, j, k) = (1, 2, 0) ∨ (i, j, k) = (2, 0, 1) ∨ (i, j, k) = (2, 1, 0) := by decide
    rcases cases i j k hij hik hjk with h | h | h | h | h | h <;> cases h
    · exact h1
    · rw [angleBetween_comm]; exact h1
    · exact h2
    · rw [angleBetween_comm]; exact h2
    · exact h3
    · rw [angleBetween_comm]; exact h3
  · intro h
    exact ⟨h 0 1 2 (by decide) (by decide) (by decide), h 1 0 2 (by decide) (by decide) (by decide),
      h 2 0 1 (by decide) (by decide) (by decide)⟩

open Classical in
theorem checkNormals_eq {L : ℕ} {h : Hull L} (hw : WellFormed h) (l : ℝ) :
    checkNormals h l = h.valid.filter fun f =>
      decide (angleBetween (centroid h.points f) (faceNormal h.points (calculateBarycenter h.points) 10e-6 false f) ≤ deg2rad l) := by
  have hvi : ∀ v ∈ h.valid, Function.Injective v := fun v hv => hw.inj v (hw.valid.subset hv)
  unfold checkNormals
  rw [hw.normals, hw.centroids, hw.listener]
  unfold calculateFaceNormals calculateCentroids
  have hz : h.simplices.zip ((h.simplices.map (faceNormal h.points (calculateBarycenter h.points) 10e-6 false)).zip
      (h.simplices.map (centroid h.points)))
      = h.simplices.map fun f => (f, faceNormal h.points (calculateBarycenter h.points) 10e-6 false f, centroid h.points f) := by
    rw [List.zip_map', List.zip_map_right, ← List.map_id h.simplices, List.zip_map']
    simp
  rw [hz, List.filter_map, List.map_map]
  have hmap : ∀ l : List (Face L), l.map (Prod.fst ∘ fun f => (f, faceNormal h.points (calculateBarycenter h.points) 10e-6 false f,
      centroid h.points f)) = l := fun l => List.map_id l
  rw [hmap]
  -- membership in the valid list is the same as having the vertices of one of its faces
  have hmem : ∀ f ∈ h.simplices, isSimplexValid h.valid f = decide (f ∈ h.valid) := by
    intro f hf
    rw [Bool.eq_iff_iff, C37_valid _ hvi, decide_eq_true_eq]
    constructor
    · rintro ⟨v, hv, hr⟩
      by_contra hne
      have hvf : v ≠ f := fun h => hne (h ▸ hv)
      have : Std.Symm fun f g : Face L => Set.range f ≠ Set.range g := ⟨fun a b hab => hab.symm⟩
      have := hw.distinct.forall (hw.valid.subset hv) hf hvf
      exact this hr
    · intro hv; exact ⟨f, hv, rfl⟩
  have hnodup : h.simplices.Nodup := hw.distinct.imp fun {a b} hab (h : a = b) => hab (h ▸ rfl)
  have hsub : h.valid = h.simplices.filter fun f => decide (f ∈ h.valid) := by
    have h1 : (h.simplices.filter fun f => decide (f ∈ h.valid)).Nodup := hnodup.filter _
    have h2 : h.valid.Nodup := hw.valid.nodup hnodup
    have hsl : h.valid.Sublist (h.simplices.filter fun f => decide (f ∈ h.valid)) := by
      have := hw.valid.filter fun f => decide (f ∈ h.valid)
      rwa [List.filter_eq_self.2 (by simp)] at this
    refine hsl.eq_of_length_le ?_
    refine List.Subperm.length_le (List.subperm_of_subset h1 ?_)
    intro x hx
    simpa using (List.mem_filter.1 hx).2
  conv_rhs => rw [hsub, List.filter_filter]
  refine List.filter_congr fun f hf => ?_
  simp only [Function.comp]
  rw [hmem f hf, Bool.and_comm, angleBetween_zero]
  simp only [not_lt]

theorem wf_sublist {L : ℕ} {h : Hull L} (hw : WellFormed h) (v : List (Face L)) (hv : v.Sublist h.valid) :
    WellFormed { h with valid := v } :=
  ⟨hw.inj, hw.distinct, hw.centroids, hw.normals, hv.trans hw.valid, hw.listener⟩

open Classical in
/-- C35: exactly the faces that meet all given criteria survive, in their order; nothing else of the setup changes. -/
theorem C35_survive {L : ℕ} {h : Hull L} (hw : WellFormed h) (n a o : Option ℝ) (b : Option (List ℕ)) :
    popTriangles h n a o b = { h with valid := h.valid.filter fun f => decide (Passes h n a o b f) } := by
  have step1 : popNormal h n
      = { h with valid := h.valid.filter fun f => decide (Passes h n none none none f) } := by
    cases n with
    | none =>
      have : (h.valid.filter fun f => decide (Passes h none none none none f)) = h.valid :=
        List.filter_eq_self.2 fun f _ => by simp only [decide_eq_true_eq]; exact ⟨nofun, nofun, nofun, nofun⟩
      simp only [popNormal, popAperture, popOpening, this]
    | some l =>
      simp only [popNormal, popAperture, popOpening, checkNormals_eq hw l]
      congr 1
      refine List.filter_congr fun f _ => decide_eq_decide.2 ⟨fun hl => ⟨?_, nofun, nofun, nofun⟩, fun hp => hp.normal l rfl⟩
      intro l' hl'; cases hl'; exact hl
  have step2 : ∀ v, popAperture { h with valid := v } a = { h with valid := v.filter fun f => decide (Passes h none a none none f) } := by
    intro v
    cases a with
    | none =>
      have : (v.filter fun f => decide (Passes h none none none none f)) = v :=
        List.filter_eq_self.2 fun f _ => by simp only [decide_eq_true_eq]; exact ⟨nofun, nofun, nofun, nofun⟩
      simp only [popNormal, popAperture, popOpening, this]
    | some l =>
      simp only [popNormal, popAperture, popOpening, checkAperture, hw.listener]
      congr 1
      refine List.filter_congr fun f _ => decide_eq_decide.2 ?_
      rw [not_apertureBad]
      refine ⟨fun hl => ⟨nofun, ?_, nofun, nofun⟩, fun hp => hp.aperture l rfl⟩
      intro l' hl'; cases hl'; exact hl
  have step3 : ∀ v, popOpening { h with valid := v } o = { h with valid := v.filter fun f => decide (Passes h none none o none f) } := by
    intro v
    cases o with
    | none =>
      have : (v.filter fun f => decide (Passes h none none none none f)) = v :=
        List.filter_eq_self.2 fun f _ => by simp only [decide_eq_true_eq]; exact ⟨nofun, nofun, nofun, nofun⟩
      simp only [popNormal, popAperture, popOpening, this]
    | some l =>
      simp only [popNormal, popAperture, popOpening, checkOpening]
      congr 1
      refine List.filter_congr fun f _ => decide_eq_decide.2 ?_
      rw [not_openingBad]
      refine ⟨fun hl => ⟨nofun, nofun, ?_, nofun⟩, fun hp => hp.opening l rfl⟩
      intro l' hl'; cases hl'; exact hl
  have step4 : ∀ v, popBlacklist { h with valid := v } b
      = { h with valid := v.filter fun f => decide (Passes h none none none b f) } := by
    intro v
    cases b with
    | none =>
      have : (v.filter fun f => decide (Passes h none none none none f)) = v :=
        List.filter_eq_self.2 fun f _ => by simp only [decide_eq_true_eq]; exact ⟨nofun, nofun, nofun, nofun⟩
      simp only [this, popBlacklist]
    | some bl =>
      simp only [popBlacklist, applyBlacklist]
      congr 1
      refine List.filter_congr fun f _ => ?_
      rw [Bool.eq_iff_iff, decide_eq_true_eq, Bool.not_eq_true', List.all_eq_false]
      constructor
      · rintro ⟨e, he, hne⟩
        refine ⟨nofun, nofun, nofun, ?_⟩
        intro bl' hbl'; cases hbl'
        refine ⟨e, he, fun i hi => hne ?_⟩
        rw [decide_eq_true_eq]; exact ⟨i, hi⟩
      · intro hp
        obtain ⟨e, he, hne⟩ := hp.blacklist bl rfl
        refine ⟨e, he, ?_⟩
        rw [decide_eq_true_eq]
        rintro ⟨i, hi⟩; exact hne i hi
  unfold popTriangles
  rw [step1, step2, step3, step4]
  congr 1
  rw [List.filter_filter, List.filter_filter, List.filter_filter]
  refine List.filter_congr fun f _ => ?_
  rw [Bool.eq_iff_iff]
  simp only [Bool.and_eq_true, decide_eq_true_eq]
  constructor
  · rintro ⟨⟨⟨h1, h2⟩, h3⟩, h4⟩
    exact ⟨h4.normal, h3.aperture, h2.opening, h1.blacklist⟩
  · intro hp
    exact ⟨⟨⟨⟨nofun, nofun, nofun, hp.blacklist⟩, ⟨nofun, nofun, hp.opening, nofun⟩⟩, ⟨nofun, hp.aperture, nofun, nofun⟩⟩,
      ⟨hp.normal, nofun, nofun, nofun⟩⟩

/-- C35: the valid simplices afterwards are a sub-list of those before, so the setup stays well-formed. -/
theorem C35_sublist {L : ℕ} {h : Hull L} (hw : WellFormed h) (n a o : Option ℝ) (b : Option (List ℕ)) :
    (popTriangles h n a o b).valid.Sublist h.valid ∧ WellFormed (popTriangles h n a o b) := by
  classical
  have h1 : (h.valid.filter fun f => decide (Passes h n a o b f)).Sublist h.valid := List.filter_sublist
  rw [C35_survive hw]
  exact ⟨h1, wf_sublist hw _ h1⟩

/-- C35: repeating the call changes nothing, and with all limits `None` nothing happens at all. -/
theorem C35_idempotent {L : ℕ} {h : Hull L} (hw : WellFormed h) (n a o : Option ℝ) (b : Option (List ℕ)) :
    popTriangles (popTriangles h n a o b) n a o b = popTriangles h n a o b ∧ popTriangles h none none none none = h := by
  classical
  refine ⟨?_, rfl⟩
  rw [C35_survive (C35_sublist hw n a o b).2 n a o b, C35_survive hw]
  have : ∀ v f, Passes { h with valid := v } n a o b f ↔ Passes h n a o b f := fun v f =>
    ⟨fun hp => ⟨hp.normal, hp.aperture, hp.opening, hp.blacklist⟩, fun hp => ⟨hp.normal, hp.aperture, hp.opening, hp.blacklist⟩⟩
  simp only [this, List.filter_filter, Bool.and_self]

/-- The octahedron is well-formed. -/
theorem oct_wf : WellFormed Oct.hull := by
  have hd : Oct.faces.Pairwise fun f g => ¬ ∀ i, ∃ j, g j = f i := by decide
  refine ⟨Oct.inj, ?_, rfl, rfl, List.Sublist.refl _, rfl⟩
  refine hd.imp fun {f g} hfg h => hfg fun i => ?_
  have : f i ∈ Set.range g := h ▸ ⟨i, rfl⟩
  exact this

example : ∃ h : Hull 6, WellFormed h ∧ (popTriangles h none none none (some [0, 2])).valid.length = 6 ∧ h.valid.length = 8 :=
  ⟨Oct.hull, oct_wf, by
    have : (Oct.faces.filter fun f => ! [0, 2].all fun e => decide (∃ i, (f i : ℕ) = e)).length = 6 := by decide
    exact this, rfl⟩

theorem deg2rad_mono {x y : ℝ} (hx : 0 ≤ x) (hxy : x ≤ y) (hy : y < 360) : deg2rad x ≤ deg2rad y := by
  have h : ∀ z : ℝ, 0 ≤ z → z < 360 → deg2rad z = z / 180 * π := by
    intro z h0 h1
    unfold deg2rad pyMod
    have : ⌊z / 360⌋ = 0 := by
      rw [Int.floor_eq_iff]; constructor
      · push_cast; positivity
      · push_cast; rw [zero_add, div_lt_one (by norm_num)]; exact h1
    rw [this]; simp
  rw [h x hx (by linarith), h y (by linarith) hy]
  have := pi_pos
  gcongr

/-- A limit is looser: absent, or larger within one turn. -/
def Looser : Option ℝ → Option ℝ → Prop
  | _, none => True
  | some x, some y => 0 ≤ x ∧ x ≤ y ∧ y < 360
  | none, some _ => False

theorem looser_le {l l' : Option ℝ} (h : Looser l l') {A : ℝ} (hA : ∀ x, l = some x → A ≤ deg2rad x) :
    ∀ y, l' = some y → A ≤ deg2rad y := by
  rintro y rfl
  cases l with
  | none => exact absurd h id
  | some x => exact (hA x rfl).trans (deg2rad_mono h.1 h.2.1 h.2.2)

/-- C36: looser limits (within one turn) keep at least the same faces. -/
theorem C36_monotone {L : ℕ} {h : Hull L} (hw : WellFormed h) (n n' a a' o o' : Option ℝ) (b : Option (List ℕ)) (hn : Looser n n')
    (ha : Looser a a') (ho : Looser o o') : (popTriangles h n a o b).valid ⊆ (popTriangles h n' a' o' b).valid := by
  classical
  rw [C35_survive hw, C35_survive hw]
  intro f hf
  rw [List.mem_filter, decide_eq_true_eq] at hf ⊢
  obtain ⟨hm, hp⟩ := hf
  exact ⟨hm, looser_le hn hp.normal, fun y hy i j hij => looser_le ha (fun x hx => hp.aperture x hx i j hij) y hy,
    fun y hy i j k h1 h2 h3 => looser_le ho (fun x hx => hp.opening x hx i j k h1 h2 h3) y hy, hp.blacklist⟩

/-- C36: limits are wrapped into one turn, so that 360 degrees act like 0 degrees; an empty blacklist removes every face. -/
theorem C36_wrap {L : ℕ} (h : Hull L) :
    (∀ (l : ℝ) (k : ℤ) (a o : Option ℝ) (b : Option (List ℕ)), popTriangles h (some (l + 360 * k)) a o b = popTriangles h (some l) a o b)
    ∧ (∀ n a o : Option ℝ, (popTriangles h n a o (some [])).valid = []) := by
  constructor
  · intro l k a o b
    have : deg2rad (l + 360 * k) = deg2rad l := by
      unfold deg2rad pyMod
      have : (l + 360 * (k : ℝ)) / 360 = l / 360 + k := by field_simp
      rw [this, Int.floor_add_intCast]; push_cast; ring
    have : popNormal h (some (l + 360 * k)) = popNormal h (some l) := by
      unfold popNormal checkNormals
      simp only [this]
    unfold popTriangles
    rw [this]
  · intro n a o
    unfold popTriangles popBlacklist applyBlacklist
    simp

example : Looser (some 85) (some 90) ∧ Looser (some 85) none := ⟨⟨by norm_num, by norm_num, by norm_num⟩, trivial⟩

/-! ### C38 -/

theorem perm_cases : ∀ σ : Equiv.Perm (Fin 3), (σ 0, σ 1, σ 2, Equiv.Perm.sign σ) ∈
    [((0 : Fin 3), (1 : Fin 3), (2 : Fin 3), (1 : ℤˣ)), (1, 2, 0, 1), (2, 0, 1, 1), (0, 2, 1, -1), (2, 1, 0, -1), (1, 0, 2, -1)] := by
  decide

theorem cross_perm (p : Fin 3 → Vec3) (σ : Equiv.Perm (Fin 3)) :
    crossProduct (p (σ 1) - p (σ 0)) (p (σ 2) - p (σ 0)) = ((Equiv.Perm.sign σ : ℤ) : ℝ) • crossProduct (p 1 - p 0) (p 2 - p 0) := by
  have h := perm_cases σ
  simp only [List.mem_cons, Prod.mk.injEq, List.not_mem_nil, or_false] at h
  rcases h with h | h | h | h | h | h <;> obtain ⟨h0, h1, h2, h3⟩ := h <;> rw [h0, h1, h2, h3] <;> simp only [cross_apply] <;>
    funext c <;> fin_cases c <;> simp <;> ring

theorem norm3_smul (c : ℝ) (v : Vec3) : norm3 (c • v) = |c| * norm3 v := by
  unfold norm3
  rw [smul_dotProduct, dotProduct_smul, smul_eq_mul, smul_eq_mul, ← mul_assoc, Real.sqrt_mul (mul_self_nonneg c), Real.sqrt_mul_self_eq_abs]

theorem norm3_neg (v : Vec3) : norm3 (-v) = norm3 v := by
  unfold norm3; rw [neg_dotProduct, dotProduct_neg, neg_neg]

theorem sign_abs (σ : Equiv.Perm (Fin 3)) : |((Equiv.Perm.sign σ : ℤ) : ℝ)| = 1 := by
  rcases Int.units_eq_one_or (Equiv.Perm.sign σ) with h | h <;> rw [h] <;> simp

/-- C38: the area of a face does not depend on the order of its vertices. -/
theorem C38_area {L : ℕ} (points : Fin L → Vec3) (f : Face L) (σ : Equiv.Perm (Fin 3)) :
    calculateFaceAreas points [fun i => f (σ i)] = calculateFaceAreas points [f] := by
  unfold calculateFaceAreas areaTriangle
  simp only [List.map_cons, List.map_nil]
  rw [cross_perm (fun i => points (f i)) σ, norm3_smul, sign_abs, one_mul]

/-- C38: the (unnormalised) normal is perpendicular to the face, its length is twice the face area, and its dot product with the
direction from the centroid to the barycenter is at most `eps`. -/
theorem C38_normal {L : ℕ} (points : Fin L → Vec3) (faces : List (Face L)) (eps : ℝ) (heps : 0 ≤ eps) (n : ℕ) (f : Face L)
    (hf : faces[n]? = some f) : ∃ v area, (calculateFaceNormals points faces eps false)[n]? = some v ∧
      (calculateFaceAreas points faces)[n]? = some area ∧ (∀ i j, v ⬝ᵥ (points (f i) - points (f j)) = 0) ∧ norm3 v = 2 * area
      ∧ v ⬝ᵥ (calculateBarycenter points - centroid points f) ≤ eps := by
  refine ⟨faceNormal points (calculateBarycenter points) eps false f, areaTriangle (points (f 0)) (points (f 1)) (points (f 2)),
    by unfold calculateFaceNormals; rw [List.getElem?_map, hf]; rfl, by unfold calculateFaceAreas; rw [List.getElem?_map, hf]; rfl, ?_, ?_, ?_⟩
  · have hperp : ∀ i j, crossProduct (points (f 1) - points (f 0)) (points (f 2) - points (f 0)) ⬝ᵥ (points (f i) - points (f j)) = 0 := by
      have h1 : crossProduct (points (f 1) - points (f 0)) (points (f 2) - points (f 0)) ⬝ᵥ (points (f 1) - points (f 0)) = 0 := by
        rw [dotProduct_comm]; exact dot_self_cross _ _
      have h2 : crossProduct (points (f 1) - points (f 0)) (points (f 2) - points (f 0)) ⬝ᵥ (points (f 2) - points (f 0)) = 0 := by
        rw [dotProduct_comm]; exact dot_cross_self _ _
      have h3 : ∀ i, crossProduct (points (f 1) - points (f 0)) (points (f 2) - points (f 0)) ⬝ᵥ (points (f i) - points (f 0)) = 0 := by
        intro i
        match i with
        | 0 => rw [sub_self, dotProduct_zero]
        | 1 => exact h1
        | 2 => exact h2
      intro i j
      have : points (f i) - points (f j) = (points (f i) - points (f 0)) - (points (f j) - points (f 0)) := by abel
      rw [this, dotProduct_sub, h3, h3, sub_zero]
    intro i j
    unfold faceNormal
    simp only [Bool.false_eq_true, if_false]
    split_ifs
    · rw [neg_dotProduct, hperp, neg_zero]
    · exact hperp i j
  · unfold faceNormal areaTriangle
    simp only [Bool.false_eq_true, if_false]
    split_ifs
    · rw [norm3_neg]; ring
    · ring
  · unfold faceNormal
    simp only [Bool.false_eq_true, if_false, add_sub_cancel_left]
    split_ifs with h
    · rw [neg_dotProduct]; linarith
    · exact not_lt.1 h

/-- C38: the normal does not depend on the order of the vertices, provided the face is not (nearly) coplanar with the barycenter. -/
theorem C38_orientation {L : ℕ} (points : Fin L → Vec3) (f : Face L) (σ : Equiv.Perm (Fin 3)) (eps : ℝ) (heps : 0 ≤ eps) (nrm : Bool)
    (hcop : eps < |crossProduct (points (f 1) - points (f 0)) (points (f 2) - points (f 0)) ⬝ᵥ (calculateBarycenter points - centroid points f)|) :
    calculateFaceNormals points [fun i => f (σ i)] eps nrm = calculateFaceNormals points [f] eps nrm := by
  have hc : centroid points (fun i => f (σ i)) = centroid points f := by
    unfold centroid
    funext c
    rw [Equiv.sum_comp σ fun i => points (f i) c]
  unfold calculateFaceNormals faceNormal
  simp only [List.map_cons, List.map_nil, hc, add_sub_cancel_left]
  rw [cross_perm (fun i => points (f i)) σ]
  set v := crossProduct (points (f 1) - points (f 0)) (points (f 2) - points (f 0))
  rcases Int.units_eq_one_or (Equiv.Perm.sign σ) with h | h
  · rw [h]; simp
  · rw [h]
    have e : (((-1 : ℤˣ) : ℤ) : ℝ) • v = -v := by simp
    rw [e, neg_dotProduct, neg_neg]
    rcases lt_abs.1 hcop with h1 | h1
    · have h2 : ¬ -(v ⬝ᵥ (calculateBarycenter points - centroid points f)) > eps := by
        have h1' : eps < v ⬝ᵥ (calculateBarycenter points - centroid points f) := h1
        intro h'; linarith
      rw [if_neg h2, if_pos h1]
    · have h2 : ¬ v ⬝ᵥ (calculateBarycenter points - centroid points f) > eps := by
        have h1' : eps < -(v ⬝ᵥ (calculateBarycenter points - centroid points f)) := h1
        intro h'; linarith
      rw [if_pos h1, if_neg h2]

/-- The hypothesis of `C38_orientation` on the octahedron with the default tolerance. -/
example : (10e-6 : ℝ) < |crossProduct (Oct.pts 2 - Oct.pts 0) (Oct.pts 4 - Oct.pts 0) ⬝ᵥ
    (calculateBarycenter Oct.pts - centroid Oct.pts ![0, 2, 4])| := by
  rw [Oct.barycenter_pts]
  have : crossProduct (Oct.pts 2 - Oct.pts 0) (Oct.pts 4 - Oct.pts 0) ⬝ᵥ (0 - centroid Oct.pts ![0, 2, 4]) = -1 := by
    simp [cross_apply, Oct.pts, centroid, Fin.sum_univ_three, dotProduct]
    norm_num
  rw [this]; norm_num

/-- C38: for a face in one plane with the barycenter the normal *does* depend on the order of the vertices: swapping two vertices
turns it round. -/
theorem C38_coplanar {L : ℕ} (points : Fin L → Vec3) (f : Face L) (eps : ℝ) (heps : 0 ≤ eps)
    (hcop : crossProduct (points (f 1) - points (f 0)) (points (f 2) - points (f 0)) ⬝ᵥ (calculateBarycenter points - centroid points f) = 0) :
    faceNormal points (calculateBarycenter points) eps false (fun i => f (Equiv.swap 1 2 i))
      = -faceNormal points (calculateBarycenter points) eps false f := by
  have hc : centroid points (fun i => f (Equiv.swap 1 2 i)) = centroid points f := by
    unfold centroid
    funext c
    rw [Equiv.sum_comp (Equiv.swap 1 2) fun i => points (f i) c]
  unfold faceNormal
  simp only [Bool.false_eq_true, if_false, hc, add_sub_cancel_left]
  rw [cross_perm (fun i => points (f i)) (Equiv.swap 1 2), Equiv.Perm.sign_swap (by decide)]
  have e : ∀ v : Vec3, (((-1 : ℤˣ) : ℤ) : ℝ) • v = -v := fun v => by simp
  rw [e, neg_dotProduct, hcop, neg_zero, if_neg (not_lt.2 heps), if_neg (not_lt.2 heps)]

/-- `C35_survive`, `C35_sublist`, `C36_monotone`: limits on the octahedron. -/
example : (popTriangles Oct.hull (some 85) none none (some [0])).valid.Sublist Oct.hull.valid ∧
    (popTriangles Oct.hull (some 85) none none (some [0])).valid ⊆ (popTriangles Oct.hull (some 90) none none (some [0])).valid ∧
    (popTriangles Oct.hull none none none (some [0])).points = Oct.hull.points :=
  ⟨(C35_sublist oct_wf (some 85) none none (some [0])).1,
    C36_monotone oct_wf (some 85) (some 90) none none none none (some [0]) ⟨by norm_num, by norm_num, by norm_num⟩ trivial trivial,
    by rw [C35_survive oct_wf none none none (some [0])]⟩

/-- `C38_normal`: the first face of the octahedron. -/
example : ∃ v area, (calculateFaceNormals Oct.pts Oct.faces 10e-6 false)[0]? = some v ∧ (calculateFaceAreas Oct.pts Oct.faces)[0]? = some area ∧
    norm3 v = 2 * area := by
  obtain ⟨v, area, h1, h2, -, h3, -⟩ := C38_normal Oct.pts Oct.faces 10e-6 (by norm_num) 0 _ rfl
  exact ⟨v, area, h1, h2, h3⟩

/-- `C38_coplanar`: three loudspeakers, whose barycenter lies in the plane of the only triangle. -/
example : faceNormal ![![1, 0, 0], ![0, 1, 0], ![0, 0, 1]] (calculateBarycenter ![![1, 0, 0], ![0, 1, 0], ![0, 0, 1]]) 10e-6 false
      (fun i => (![0, 1, 2] : Face 3) (Equiv.swap 1 2 i))
    = -faceNormal ![![1, 0, 0], ![0, 1, 0], ![0, 0, 1]] (calculateBarycenter ![![1, 0, 0], ![0, 1, 0], ![0, 0, 1]]) 10e-6 false ![0, 1, 2] := by
  refine C38_coplanar ![![1, 0, 0], ![0, 1, 0], ![0, 0, 1]] ![0, 1, 2] 10e-6 (by norm_num) ?_
  simp [cross_apply, calculateBarycenter, centroid, Fin.sum_univ_three, dotProduct]

end Verif.Props
