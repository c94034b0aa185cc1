import Verif.Props.AmbiPanning

/-!
C103: the imaginary loudspeaker that closes a hull with a hole.
-/

namespace Verif.Props
open Real Verif.Sph Verif.Utils Verif.Decoder

/-- The vertices of a face. -/
def corners {L : ℕ} (f : Face L) : Finset (Fin L) := {f 0, f 1, f 2}

/-- The number of faces that have both `a` and `b` as vertices. -/
def facesAt {L : ℕ} (faces : List (Face L)) (a b : Fin L) : ℕ := (faces.filter fun f => decide (a ∈ corners f ∧ b ∈ corners f)).length

theorem edgeCount_eq {L : ℕ} (faces : List (Face L)) (hinj : ∀ f ∈ faces, Function.Injective f) (a b : Fin L) (hab : a ≠ b) :
    edgeCount faces (a, b) = facesAt faces a b := by
  unfold edgeCount facesAt
  rw [List.countP_eq_length_filter]
  congr 1
  refine List.filter_congr fun f hf => ?_
  have h01 : f 0 ≠ f 1 := fun h => absurd (hinj f hf h) (by decide)
  have h02 : f 0 ≠ f 2 := fun h => absurd (hinj f hf h) (by decide)
  have h12 : f 1 ≠ f 2 := fun h => absurd (hinj f hf h) (by decide)
  have hr : List.finRange 3 = [0, 1, 2] := rfl
  rw [hr, Bool.eq_iff_iff]
  simp only [List.countP_cons, List.countP_nil, decide_eq_true_eq, corners, Finset.mem_insert, Finset.mem_singleton, beq_iff_eq]
  by_cases a0 : f 0 = a <;> by_cases a1 : f 1 = a <;> by_cases a2 : f 2 = a <;>
  by_cases b0 : f 0 = b <;> by_cases b1 : f 1 = b <;> by_cases b2 : f 2 = b <;>
  simp_all [eq_comm]

/-- The number of rim edges at a vertex: neighbours such that the connecting edge belongs to exactly one face. -/
def rimDegree {L : ℕ} (faces : List (Face L)) (v : Fin L) : ℕ := (Finset.univ.filter fun b => b ≠ v ∧ facesAt faces v b = 1).card

theorem facesAt_comm {L : ℕ} (faces : List (Face L)) (a b : Fin L) : facesAt faces a b = facesAt faces b a := by
  unfold facesAt
  congr 1
  refine List.filter_congr fun f _ => ?_
  rw [Bool.eq_iff_iff]
  simp only [decide_eq_true_eq]
  exact and_comm

theorem face_count {L : ℕ} (P : Fin L → Fin L → Prop) [∀ a b, Decidable (P a b)] (hP : ∀ a b, P a b ↔ P b a) (f : Face L)
    (hf : Function.Injective f) (v : Fin L) :
    (((([(f 0, f 1), (f 1, f 2), (f 0, f 2)].filter fun e => decide (P e.1 e.2)).flatMap fun e => [e.1, e.2])).count v : ℕ)
      = ∑ b : Fin L, if b ≠ v ∧ P v b ∧ v ∈ corners f ∧ b ∈ corners f then 1 else 0 := by
  have h01 : f 0 ≠ f 1 := fun h => absurd (hf h) (by decide)
  have h02 : f 0 ≠ f 2 := fun h => absurd (hf h) (by decide)
  have h12 : f 1 ≠ f 2 := fun h => absurd (hf h) (by decide)
  have e1 : (∑ b : Fin L, if b ≠ v ∧ P v b ∧ v ∈ corners f ∧ b ∈ corners f then 1 else 0)
      = ∑ b ∈ corners f, if b ≠ v ∧ P v b ∧ v ∈ corners f then 1 else 0 := by
    rw [← Finset.sum_filter_add_sum_filter_not Finset.univ (· ∈ corners f)]
    have z : ∑ b ∈ Finset.univ.filter (fun b => ¬ b ∈ corners f), (if b ≠ v ∧ P v b ∧ v ∈ corners f ∧ b ∈ corners f then 1 else 0) = 0 :=
      Finset.sum_eq_zero fun b hb => if_neg fun h => (Finset.mem_filter.1 hb).2 h.2.2.2
    rw [z, add_zero]
    refine Finset.sum_congr (by ext; simp) fun b hb => ?_
    have hb' : b ∈ corners f := by simpa using hb
    simp only [hb', and_true]
  rw [e1]
  unfold corners
  rw [Finset.sum_insert (by simp [h01, h02]), Finset.sum_insert (by simp [h12]), Finset.sum_singleton]
  have p01 := hP (f 0) (f 1)
  have p02 := hP (f 0) (f 2)
  have p12 := hP (f 1) (f 2)
  by_cases a0 : f 0 = v
  · subst a0
    by_cases q1 : P (f 0) (f 1) <;> by_cases q2 : P (f 1) (f 2) <;> by_cases q3 : P (f 0) (f 2) <;>
      simp [q1, q2, q3, h01, h02, h12, h01.symm, h02.symm]
  · by_cases a1 : f 1 = v
    · subst a1
      by_cases q1 : P (f 0) (f 1) <;> by_cases q2 : P (f 1) (f 2) <;> by_cases q3 : P (f 0) (f 2) <;>
        simp [q1, q2, q3, ← p01, h01, h02, h12, h01.symm, h12.symm]
    · by_cases a2 : f 2 = v
      · subst a2
        by_cases q1 : P (f 0) (f 1) <;> by_cases q2 : P (f 1) (f 2) <;> by_cases q3 : P (f 0) (f 2) <;>
          simp [q1, q2, q3, ← p02, ← p12, h01, h02, h12, h01.symm, h02.symm, h12.symm]
      · have hv : ¬ (v = f 0 ∨ v = f 1 ∨ v = f 2) := by rintro (h | h | h) <;> simp_all
        by_cases q1 : P (f 0) (f 1) <;> by_cases q2 : P (f 1) (f 2) <;> by_cases q3 : P (f 0) (f 2) <;>
          simp [q1, q2, q3, a0, a1, a2, hv]

theorem list_sum_comm {α : Type} {n : ℕ} (F : α → Fin n → ℕ) : ∀ l : List α, (l.map fun x => ∑ b, F x b).sum = ∑ b, (l.map fun x => F x b).sum
  | [] => by simp
  | a :: l => by
    simp only [List.map_cons, List.sum_cons, list_sum_comm F l, Finset.sum_add_distrib]

/-- How often a vertex occurs among the ends of the rim edges. -/
theorem rim_count {L : ℕ} (faces : List (Face L)) (hinj : ∀ f ∈ faces, Function.Injective f) (v : Fin L) :
    ((rimEdges faces).flatMap fun e => [e.1, e.2]).count v = rimDegree faces v := by
  have hre : ((rimEdges faces).flatMap fun e => [e.1, e.2]) = faces.flatMap fun f =>
      ([(f 0, f 1), (f 1, f 2), (f 0, f 2)].filter fun e => decide (facesAt faces e.1 e.2 = 1)).flatMap fun e => [e.1, e.2] := by
    unfold rimEdges
    rw [List.flatMap_assoc]
    refine List.flatMap_congr fun f hf => ?_
    congr 1
    refine List.filter_congr fun e he => ?_
    have h01 : f 0 ≠ f 1 := fun h => absurd (hinj f hf h) (by decide)
    have h02 : f 0 ≠ f 2 := fun h => absurd (hinj f hf h) (by decide)
    have h12 : f 1 ≠ f 2 := fun h => absurd (hinj f hf h) (by decide)
    have hne : e.1 ≠ e.2 := by
      simp only [List.mem_cons, List.not_mem_nil, or_false] at he
      rcases he with rfl | rfl | rfl <;> assumption
    rw [show edgeCount faces e = facesAt faces e.1 e.2 from edgeCount_eq faces hinj e.1 e.2 hne]
    rw [Bool.eq_iff_iff]; simp
  rw [hre, List.count_flatMap]
  have h1 : (faces.map (List.count v ∘ fun f =>
      ([(f 0, f 1), (f 1, f 2), (f 0, f 2)].filter fun e => decide (facesAt faces e.1 e.2 = 1)).flatMap fun e => [e.1, e.2]))
      = faces.map fun f => ∑ b : Fin L, if b ≠ v ∧ facesAt faces v b = 1 ∧ v ∈ corners f ∧ b ∈ corners f then 1 else 0 := by
    refine List.map_congr_left fun f hf => ?_
    exact face_count (fun a b => facesAt faces a b = 1) (fun a b => by rw [facesAt_comm]) f (hinj f hf) v
  rw [h1, list_sum_comm]
  unfold rimDegree
  rw [Finset.card_filter]
  refine Finset.sum_congr rfl fun b _ => ?_
  by_cases hb : b ≠ v ∧ facesAt faces v b = 1
  · rw [if_pos hb]
    have : (faces.map fun f => if b ≠ v ∧ facesAt faces v b = 1 ∧ v ∈ corners f ∧ b ∈ corners f then 1 else 0).sum = facesAt faces v b := by
      have gen : ∀ l : List (Face L), (l.map fun f => if b ≠ v ∧ facesAt faces v b = 1 ∧ v ∈ corners f ∧ b ∈ corners f then 1 else 0).sum
          = (l.filter fun f => decide (v ∈ corners f ∧ b ∈ corners f)).length := by
        intro l
        induction l with
        | nil => rfl
        | cons f l ih =>
          rw [List.map_cons, List.sum_cons, ih, List.filter_cons]
          by_cases hc : v ∈ corners f ∧ b ∈ corners f
          · rw [if_pos ⟨hb.1, hb.2, hc.1, hc.2⟩, if_pos (by simpa using hc), List.length_cons]; omega
          · rw [if_neg (fun h => hc h.2.2), if_neg (by simpa using hc)]; omega
      exact gen faces
    rw [this, hb.2]
  · rw [if_neg hb]
    refine List.sum_eq_zero fun x hx => ?_
    obtain ⟨f, _, rfl⟩ := List.mem_map.1 hx
    exact if_neg fun h => hb ⟨h.1, h.2.1⟩

theorem findImaginary_cases {L : ℕ} (h : Hull L) (hinj : ∀ f ∈ h.valid, Function.Injective f) :
    ((∃ v, rimDegree h.valid v = 1) → findImaginaryLoudspeaker h = .error .notImplementedError) ∧
    ((∀ v, rimDegree h.valid v = 0 ∨ rimDegree h.valid v = 3) → findImaginaryLoudspeaker h = .error .runtimeError) ∧
    ((∀ v, rimDegree h.valid v ≠ 1) → (∃ v, rimDegree h.valid v ≠ 0 ∧ rimDegree h.valid v ≠ 3) →
      findImaginaryLoudspeaker h = .ok (-(1 / ((h.valid.map fun f => (((h.simplices.zip (h.faceAreas.zip h.faceNormals)).filter fun t =>
          (List.finRange 3).countP (fun i => decide (∃ j, f j = t.1 i)) == 3).map fun t => (∑ i, h.d (t.1 i)) / 3).sum).sum
        / h.valid.length) ^ 3) • (h.valid.map fun f => (((h.simplices.zip (h.faceAreas.zip h.faceNormals)).filter fun t =>
          (List.finRange 3).countP (fun i => decide (∃ j, f j = t.1 i)) == 3).map fun t => t.2.1 • t.2.2).sum).sum)) := by
  set verts := (rimEdges h.valid).flatMap fun e => [e.1, e.2] with hverts
  have hc : ∀ v, verts.count v = rimDegree h.valid v := fun v => rim_count h.valid hinj v
  have hm : ∀ v, v ∈ verts ↔ rimDegree h.valid v ≠ 0 := by
    intro v
    rw [← hc v, ← List.count_pos_iff]
    omega
  have h2 : (verts.map fun v => verts.count v).all (· ≥ 2) = true ↔ ∀ v, rimDegree h.valid v ≠ 1 := by
    simp only [List.all_map, List.all_eq_true, Function.comp, decide_eq_true_eq, hc, hm]
    exact ⟨fun H v hv => by have := H v (by omega); omega, fun H v hv => by have := H v; omega⟩
  have h3 : (verts.map fun v => verts.count v).all (· == 3) = true ↔ ∀ v, rimDegree h.valid v = 0 ∨ rimDegree h.valid v = 3 := by
    simp only [List.all_map, List.all_eq_true, Function.comp, beq_iff_eq, hc, hm]
    exact ⟨fun H v => by have := H v; tauto, fun H v hv => by have := H v; tauto⟩
  unfold findImaginaryLoudspeaker
  simp only [← hverts]
  refine ⟨fun ⟨v, hv⟩ => ?_, fun H => ?_, fun H ⟨v, hv0, hv3⟩ => ?_⟩
  · rw [if_pos fun H => h2.1 H v hv]
  · rw [if_neg (not_not.2 (h2.2 fun v => by rcases H v with h | h <;> omega)), if_pos (h3.2 H)]
  · rw [if_neg (not_not.2 (h2.2 H)), if_neg fun h => by rcases h3.1 h v with h | h <;> contradiction]

/-- C103: the call is refused exactly when some vertex belongs to a single rim edge (`NotImplementedError`) or when no vertex belongs to
a number of rim edges other than 0 and 3, in particular when there is no rim at all (`RuntimeError`). -/
theorem C103_errors {L : ℕ} (h : Hull L) (hinj : ∀ f ∈ h.valid, Function.Injective f) :
    (findImaginaryLoudspeaker h = .error .notImplementedError ↔ ∃ v, rimDegree h.valid v = 1) ∧
    (findImaginaryLoudspeaker h = .error .runtimeError ↔ ∀ v, rimDegree h.valid v = 0 ∨ rimDegree h.valid v = 3) ∧
    ((∃ p, findImaginaryLoudspeaker h = .ok p) ↔
      (∀ v, rimDegree h.valid v ≠ 1) ∧ ∃ v, rimDegree h.valid v ≠ 0 ∧ rimDegree h.valid v ≠ 3) := by
  obtain ⟨c1, c2, c3⟩ := findImaginary_cases h hinj
  by_cases a : ∃ v, rimDegree h.valid v = 1
  · have := c1 a
    obtain ⟨v, hv⟩ := a
    refine ⟨⟨fun _ => ⟨v, hv⟩, fun _ => this⟩, ⟨fun e => ?_, fun H => ?_⟩, ⟨fun ⟨p, e⟩ => ?_, fun H => absurd hv (H.1 v)⟩⟩
    · rw [this] at e; cases e
    · rcases H v with h | h <;> omega
    · rw [this] at e; cases e
  · by_cases b : ∀ v, rimDegree h.valid v = 0 ∨ rimDegree h.valid v = 3
    · have := c2 b
      refine ⟨⟨fun e => ?_, fun H => absurd H a⟩, ⟨fun _ => b, fun _ => this⟩, ⟨fun ⟨p, e⟩ => ?_, fun ⟨_, v, h0, h3⟩ => ?_⟩⟩
      · rw [this] at e; cases e
      · rw [this] at e; cases e
      · rcases b v with h | h <;> contradiction
    · have a' : ∀ v, rimDegree h.valid v ≠ 1 := fun v hv => a ⟨v, hv⟩
      have b' : ∃ v, rimDegree h.valid v ≠ 0 ∧ rimDegree h.valid v ≠ 3 := by push Not at b; exact b
      have := c3 a' b'
      refine ⟨⟨fun e => ?_, fun H => absurd H a⟩, ⟨fun e => ?_, fun H => absurd H b⟩, ⟨fun _ => ⟨a', b'⟩, fun _ => ⟨_, this⟩⟩⟩
      · rw [this] at e; cases e
      · rw [this] at e; cases e

/-- C103: a closed hull (the octahedron) is refused. -/
example : findImaginaryLoudspeaker Oct.hull = .error .runtimeError :=
  (C103_errors Oct.hull Oct.inj).2.1.2 (by show ∀ v, rimDegree Oct.faces v = 0 ∨ rimDegree Oct.faces v = 3; decide +kernel)

theorem pick_eq {L : ℕ} (f g : Face L) (hf : Function.Injective f) (hg : Function.Injective g) :
    ((List.finRange 3).countP (fun i => decide (∃ j, f j = g i)) == 3) = decide (corners g = corners f) := by
  have hmem : ∀ (k : Face L) (x : Fin L), (∃ j, k j = x) ↔ x ∈ corners k := by
    intro k x
    simp only [corners, Finset.mem_insert, Finset.mem_singleton, Fin.exists_fin_succ, Fin.isValue]
    constructor
    · rintro (h | h | h | h)
      · exact .inl h.symm
      · exact .inr (.inl h.symm)
      · exact .inr (.inr h.symm)
      · obtain ⟨i, _⟩ := h; exact i.elim0
    · rintro (h | h | h)
      · exact .inl h.symm
      · exact .inr (.inl h.symm)
      · exact .inr (.inr (.inl h.symm))
  have hcard : ∀ k : Face L, Function.Injective k → (corners k).card = 3 := by
    intro k hk
    have h01 : k 0 ≠ k 1 := fun h => absurd (hk h) (by decide)
    have h02 : k 0 ≠ k 2 := fun h => absurd (hk h) (by decide)
    have h12 : k 1 ≠ k 2 := fun h => absurd (hk h) (by decide)
    unfold corners
    rw [Finset.card_insert_of_notMem (by simp [h01, h02]), Finset.card_insert_of_notMem (by simp [h12]), Finset.card_singleton]
  rw [Bool.eq_iff_iff, beq_iff_eq, decide_eq_true_eq]
  have h1 : (List.finRange 3).countP (fun i => decide (∃ j, f j = g i)) = 3 ↔ ∀ i, g i ∈ corners f := by
    have := List.countP_eq_length (p := fun i => decide (∃ j, f j = g i)) (l := List.finRange 3)
    rw [List.length_finRange] at this
    rw [this]
    simp [hmem]
  rw [h1]
  constructor
  · intro H
    refine Finset.eq_of_subset_of_card_le (fun x hx => ?_) (by rw [hcard f hf, hcard g hg])
    obtain ⟨j, rfl⟩ := (hmem g x).2 hx
    exact H j
  · intro H i
    rw [← H]
    exact (hmem g _).1 ⟨i, rfl⟩

/-- Area times outward normal vector of a face. -/
noncomputable def weightedNormal {L : ℕ} (points : Fin L → Vec3) (f : Face L) : Vec3 :=
  areaTriangle (points (f 0)) (points (f 1)) (points (f 2)) • faceNormal points (calculateBarycenter points) 10e-6 false f

/-- Mean distance of the corners of a face. -/
noncomputable def faceDist {L : ℕ} (d : Fin L → ℝ) (f : Face L) : ℝ := (d (f 0) + d (f 1) + d (f 2)) / 3

/-- The mean of `faceDist` over the valid faces. -/
noncomputable def rimDist {L : ℕ} (h : Hull L) : ℝ := (h.valid.map (faceDist h.d)).sum / h.valid.length

/-- A triangulation as the constructor makes it: no face twice (in whatever orientation), areas and normals computed from the points,
and some of its faces valid. -/
structure Triangulated {L : ℕ} (h : Hull L) : Prop where
  inj : ∀ f ∈ h.simplices, Function.Injective f
  nodup : h.simplices.Nodup
  once : ∀ f ∈ h.simplices, ∀ g ∈ h.simplices, corners f = corners g → f = g
  areas : h.faceAreas = calculateFaceAreas h.points h.simplices
  normals : h.faceNormals = calculateFaceNormals h.points h.simplices
  sub : ∀ f ∈ h.valid, f ∈ h.simplices
  vnodup : h.valid.Nodup

theorem pick_list {L : ℕ} {α : Type} (h : Hull L) (ht : Triangulated h) (f : Face L) (hf : f ∈ h.valid) (F : Face L × ℝ × Vec3 → α) :
    ((h.simplices.zip (h.faceAreas.zip h.faceNormals)).filter fun t =>
      (List.finRange 3).countP (fun i => decide (∃ j, f j = t.1 i)) == 3).map F
      = [F (f, areaTriangle (h.points (f 0)) (h.points (f 1)) (h.points (f 2)), faceNormal h.points (calculateBarycenter h.points) 10e-6 false f)] := by
  set G : Face L → Face L × ℝ × Vec3 := fun f => (f, areaTriangle (h.points (f 0)) (h.points (f 1)) (h.points (f 2)),
    faceNormal h.points (calculateBarycenter h.points) 10e-6 false f) with hG
  have hz : h.simplices.zip (h.faceAreas.zip h.faceNormals) = h.simplices.map G := by
    rw [ht.areas, ht.normals]
    unfold calculateFaceAreas calculateFaceNormals
    rw [List.zip_map']
    nth_rewrite 1 [← List.map_id h.simplices]
    rw [List.zip_map']
    rfl
  rw [hz, List.filter_map, List.map_map]
  have hfil : h.simplices.filter ((fun t : Face L × ℝ × Vec3 => (List.finRange 3).countP (fun i => decide (∃ j, f j = t.1 i)) == 3) ∘ G) = [f] := by
    have : h.simplices.filter ((fun t : Face L × ℝ × Vec3 => (List.finRange 3).countP (fun i => decide (∃ j, f j = t.1 i)) == 3) ∘ G)
        = h.simplices.filter (· == f) := by
      refine List.filter_congr fun g hg => ?_
      show ((List.finRange 3).countP (fun i => decide (∃ j, f j = g i)) == 3) = _
      rw [pick_eq f g (ht.inj f (ht.sub f hf)) (ht.inj g hg), Bool.eq_iff_iff, decide_eq_true_eq, beq_iff_eq]
      exact ⟨fun e => ht.once g hg f (ht.sub f hf) e, fun e => by rw [e]⟩
    rw [this, List.filter_beq, List.count_eq_one_of_mem ht.nodup (ht.sub f hf)]
    rfl
  rw [hfil]
  rfl

/-- C103: where the imaginary loudspeaker is put: opposite to the sum of the weighted normals of the valid faces. -/
theorem C103_position {L : ℕ} (h : Hull L) (ht : Triangulated h) (h1 : ∀ v, rimDegree h.valid v ≠ 1)
    (h2 : ∃ v, rimDegree h.valid v ≠ 0 ∧ rimDegree h.valid v ≠ 3) :
    ∃ p, findImaginaryLoudspeaker h = .ok p ∧ p = -((1 / rimDist h ^ 3) • (h.valid.map (weightedNormal h.points)).sum) := by
  refine ⟨_, (findImaginary_cases h fun f hf => ht.inj f (ht.sub f hf)).2.2 h1 h2, ?_⟩
  have e1 : (h.valid.map fun f => (((h.simplices.zip (h.faceAreas.zip h.faceNormals)).filter fun t =>
      (List.finRange 3).countP (fun i => decide (∃ j, f j = t.1 i)) == 3).map fun t => (∑ i, h.d (t.1 i)) / 3).sum)
      = h.valid.map (faceDist h.d) := by
    refine List.map_congr_left fun f hf => ?_
    rw [pick_list h ht f hf, List.sum_singleton]
    unfold faceDist
    simp only [Fin.sum_univ_three]
  have e2 : (h.valid.map fun f => (((h.simplices.zip (h.faceAreas.zip h.faceNormals)).filter fun t =>
      (List.finRange 3).countP (fun i => decide (∃ j, f j = t.1 i)) == 3).map fun t => t.2.1 • t.2.2).sum)
      = h.valid.map (weightedNormal h.points) := by
    refine List.map_congr_left fun f hf => ?_
    rw [pick_list h ht f hf, List.sum_singleton]
    rfl
  rw [e1, e2, neg_smul]
  rfl

/-- C103, part that holds: on a closed surface whose weighted normals add up to zero (in particular with faces of equal area), the
imaginary loudspeaker points out of the hole, along the weighted normals of the missing faces. Missing: surfaces whose faces differ in
area (`C103_direction_fails`). -/
theorem C103_hole_partial {L : ℕ} (h : Hull L) (ht : Triangulated h) (h1 : ∀ v, rimDegree h.valid v ≠ 1)
    (h2 : ∃ v, rimDegree h.valid v ≠ 0 ∧ rimDegree h.valid v ≠ 3) (hclosed : (h.simplices.map (weightedNormal h.points)).sum = 0) :
    ∃ p, findImaginaryLoudspeaker h = .ok p ∧
      p = (1 / rimDist h ^ 3) • ((h.simplices.filter (· ∉ h.valid)).map (weightedNormal h.points)).sum := by
  obtain ⟨p, hp, e⟩ := C103_position h ht h1 h2
  refine ⟨p, hp, ?_⟩
  rw [e, ← smul_neg]
  congr 1
  have hperm : h.valid.Perm (h.simplices.filter (· ∈ h.valid)) := by
    rw [List.perm_ext_iff_of_nodup ht.vnodup (ht.nodup.filter _)]
    intro f
    simp only [List.mem_filter, decide_eq_true_eq]
    exact ⟨fun hf => ⟨ht.sub f hf, hf⟩, fun hf => hf.2⟩
  have hsum : ((h.simplices.filter (· ∈ h.valid)).map (weightedNormal h.points)).sum
      + ((h.simplices.filter (· ∉ h.valid)).map (weightedNormal h.points)).sum = 0 := by
    rw [← hclosed, ← List.sum_append, ← List.map_append]
    refine List.Perm.sum_eq (List.Perm.map _ ?_)
    have := List.filter_append_perm (fun f => decide (f ∈ h.valid)) h.simplices
    simpa using this
  rw [(hperm.map _).sum_eq]
  exact neg_eq_of_add_eq_zero_right hsum

theorem oct_triangulated (v : List (Face 6)) (hv : ∀ f ∈ v, f ∈ Oct.faces) (hn : v.Nodup) : Triangulated { Oct.hull with valid := v } where
  inj := Oct.inj
  nodup := by show Oct.faces.Nodup; decide
  once := by show ∀ f ∈ Oct.faces, ∀ g ∈ Oct.faces, corners f = corners g → f = g; decide +kernel
  areas := rfl
  normals := rfl
  sub := hv
  vnodup := hn

/-- `C103_position` on the octahedron without the face `(0, 2, 4)`. -/
example : ∃ p, findImaginaryLoudspeaker { Oct.hull with valid := Oct.faces.tail } = .ok p := by
  obtain ⟨p, h1, -⟩ := C103_position { Oct.hull with valid := Oct.faces.tail }
    (oct_triangulated _ (fun f hf => List.mem_of_mem_tail hf) (by decide)) (by show ∀ v, rimDegree Oct.faces.tail v ≠ 1; decide +kernel)
    ⟨0, by show rimDegree Oct.faces.tail 0 ≠ 0 ∧ rimDegree Oct.faces.tail 0 ≠ 3; decide +kernel⟩
  exact ⟨p, h1⟩

/-- The outward normal in coordinates. -/
theorem faceNormal_coords {L : ℕ} (pts : Fin L → Vec3) (b : Vec3) (eps : ℝ) (f : Face L) (p q r n : Vec3) (hp : pts (f 0) = p)
    (hq : pts (f 1) = q) (hr : pts (f 2) = r) (h0 : n 0 = (q 1 - p 1) * (r 2 - p 2) - (q 2 - p 2) * (r 1 - p 1))
    (h1 : n 1 = (q 2 - p 2) * (r 0 - p 0) - (q 0 - p 0) * (r 2 - p 2)) (h2 : n 2 = (q 0 - p 0) * (r 1 - p 1) - (q 1 - p 1) * (r 0 - p 0)) :
    faceNormal pts b eps false f = if n 0 * (b 0 - (p 0 + q 0 + r 0) / 3) + n 1 * (b 1 - (p 1 + q 1 + r 1) / 3)
      + n 2 * (b 2 - (p 2 + q 2 + r 2) / 3) > eps then -n else n := by
  have hn : crossProduct (q - p) (r - p) = n := by
    rw [cross_apply]
    funext c
    fin_cases c
    · exact h0.symm
    · exact h1.symm
    · exact h2.symm
  unfold faceNormal
  simp only [Bool.false_eq_true, if_false, hp, hq, hr, hn, add_sub_cancel_left]
  have : n ⬝ᵥ (b - centroid pts f) = n 0 * (b 0 - (p 0 + q 0 + r 0) / 3) + n 1 * (b 1 - (p 1 + q 1 + r 1) / 3)
      + n 2 * (b 2 - (p 2 + q 2 + r 2) / 3) := by
    unfold centroid
    simp only [dotProduct, Fin.sum_univ_three, Pi.sub_apply, hp, hq, hr]
  rw [this]

theorem oct_normal (f : Face 6) (hf : f ∈ Oct.faces) : faceNormal Oct.pts 0 10e-6 false f = fun c => ∑ i, Oct.pts (f i) c := by
  simp only [Oct.faces, List.mem_cons, List.not_mem_nil, or_false] at hf
  rcases hf with rfl | rfl | rfl | rfl | rfl | rfl | rfl | rfl
  · rw [faceNormal_coords _ _ _ _ ![1, 0, 0] ![0, 1, 0] ![0, 0, 1] ![1, 1, 1] rfl rfl rfl (by simp) (by simp) (by simp), if_neg (by simp; norm_num)]
    funext c; fin_cases c <;> simp [Oct.pts, Fin.sum_univ_three]
  · rw [faceNormal_coords _ _ _ _ ![1, 0, 0] ![0, 1, 0] ![0, 0, -1] ![-1, -1, 1] rfl rfl rfl (by simp) (by simp) (by simp), if_pos (by simp; norm_num)]
    funext c; fin_cases c <;> simp [Oct.pts, Fin.sum_univ_three]
  · rw [faceNormal_coords _ _ _ _ ![1, 0, 0] ![0, -1, 0] ![0, 0, 1] ![-1, 1, -1] rfl rfl rfl (by simp) (by simp) (by simp), if_pos (by simp; norm_num)]
    funext c; fin_cases c <;> simp [Oct.pts, Fin.sum_univ_three]
  · rw [faceNormal_coords _ _ _ _ ![1, 0, 0] ![0, -1, 0] ![0, 0, -1] ![1, -1, -1] rfl rfl rfl (by simp) (by simp) (by simp), if_neg (by simp; norm_num)]
    funext c; fin_cases c <;> simp [Oct.pts, Fin.sum_univ_three]
  · rw [faceNormal_coords _ _ _ _ ![-1, 0, 0] ![0, 1, 0] ![0, 0, 1] ![1, -1, -1] rfl rfl rfl (by simp) (by simp) (by simp), if_pos (by simp; norm_num)]
    funext c; fin_cases c <;> simp [Oct.pts, Fin.sum_univ_three]
  · rw [faceNormal_coords _ _ _ _ ![-1, 0, 0] ![0, 1, 0] ![0, 0, -1] ![-1, 1, -1] rfl rfl rfl (by simp) (by simp) (by simp), if_neg (by simp; norm_num)]
    funext c; fin_cases c <;> simp [Oct.pts, Fin.sum_univ_three]
  · rw [faceNormal_coords _ _ _ _ ![-1, 0, 0] ![0, -1, 0] ![0, 0, 1] ![-1, -1, 1] rfl rfl rfl (by simp) (by simp) (by simp), if_neg (by simp; norm_num)]
    funext c; fin_cases c <;> simp [Oct.pts, Fin.sum_univ_three]
  · rw [faceNormal_coords _ _ _ _ ![-1, 0, 0] ![0, -1, 0] ![0, 0, -1] ![1, 1, 1] rfl rfl rfl (by simp) (by simp) (by simp), if_pos (by simp; norm_num)]
    funext c; fin_cases c <;> simp [Oct.pts, Fin.sum_univ_three]

theorem oct_area (f : Face 6) (hf : f ∈ Oct.faces) : areaTriangle (Oct.pts (f 0)) (Oct.pts (f 1)) (Oct.pts (f 2)) = √3 / 2 := by
  simp only [Oct.faces, List.mem_cons, List.not_mem_nil, or_false] at hf
  unfold areaTriangle norm3
  rcases hf with rfl | rfl | rfl | rfl | rfl | rfl | rfl | rfl <;>
  · simp [Oct.pts, cross_apply, dotProduct, Fin.sum_univ_three]
    norm_num
    ring

theorem oct_weighted (f : Face 6) (hf : f ∈ Oct.faces) : weightedNormal Oct.pts f = (√3 / 2) • fun c => ∑ i, Oct.pts (f i) c := by
  unfold weightedNormal
  rw [Oct.barycenter_pts, oct_normal f hf, oct_area f hf]

theorem pop_blacklist {L : ℕ} (h : Hull L) (bl : List ℕ) : popTriangles h none none none (some bl)
    = { h with valid := h.valid.filter fun f => ! bl.all fun e => decide (∃ i, (f i : ℕ) = e) } := rfl

/-- C103 on the octahedron: with the face `(0, 2, 4)` removed (`pop_triangles(blacklist=[0, 2, 4])`) the imaginary loudspeaker points
out of that hole. -/
example : ∃ p, findImaginaryLoudspeaker (popTriangles Oct.hull none none none (some [0, 2, 4])) = .ok p ∧ p = fun _ => √3 / 2 := by
  have hv : popTriangles Oct.hull none none none (some [0, 2, 4]) = { Oct.hull with valid := Oct.faces.tail } :=
    (pop_blacklist _ _).trans (congrArg (fun v => { Oct.hull with valid := v }) oct_blacklist)
  rw [hv]
  obtain ⟨p, h1, h2⟩ := C103_hole_partial { Oct.hull with valid := Oct.faces.tail }
    (oct_triangulated _ (fun f hf => List.mem_of_mem_tail hf) (by decide)) (by show ∀ v, rimDegree Oct.faces.tail v ≠ 1; decide +kernel)
    ⟨0, by show rimDegree Oct.faces.tail 0 ≠ 0 ∧ rimDegree Oct.faces.tail 0 ≠ 3; decide +kernel⟩ (by
      show (Oct.faces.map (weightedNormal Oct.pts)).sum = 0
      rw [List.map_congr_left oct_weighted]
      funext c
      fin_cases c <;> simp [Oct.faces, Oct.pts, Fin.sum_univ_three])
  refine ⟨p, h1, h2.trans ?_⟩
  have hd : rimDist { Oct.hull with valid := Oct.faces.tail } = 1 := by
    unfold rimDist faceDist
    show (Oct.faces.tail.map fun f => ((1 : ℝ) + 1 + 1) / 3).sum / _ = 1
    simp [Oct.faces]
    norm_num
  have hfil : Oct.faces.filter (· ∉ Oct.faces.tail) = [![0, 2, 4]] := by decide +kernel
  rw [hd]
  show (1 / (1 : ℝ) ^ 3) • ((Oct.faces.filter (· ∉ Oct.faces.tail)).map (weightedNormal Oct.pts)).sum = _
  rw [hfil, List.map_singleton, List.sum_singleton, oct_weighted _ (by simp [Oct.faces])]
  funext c
  fin_cases c <;> simp [Oct.pts, Fin.sum_univ_three]

/-- C103, negation: two separate holes (opposite faces of the octahedron) are not refused; a single imaginary loudspeaker is returned,
and it is at the position of the listener. -/
theorem C103_two_rims_fails : ∃ h : Hull 6, mkHull Oct.qhull Oct.pts 0 = .ok h ∧
    findImaginaryLoudspeaker (popTriangles (popTriangles h none none none (some [0, 2, 4])) none none none (some [1, 3, 5])) = .ok 0 := by
  refine ⟨Oct.hull, Oct.mkHull_eq, ?_⟩
  set v : List (Face 6) := [![0, 2, 5], ![0, 3, 4], ![0, 3, 5], ![1, 2, 4], ![1, 2, 5], ![1, 3, 4]] with hv
  have hb : (Oct.faces.tail.filter fun f => ! [1, 3, 5].all fun e => decide (∃ i, (f i : ℕ) = e)) = v := by decide
  have hp : popTriangles (popTriangles Oct.hull none none none (some [0, 2, 4])) none none none (some [1, 3, 5])
      = { Oct.hull with valid := v } := by
    rw [show popTriangles Oct.hull none none none (some [0, 2, 4]) = { Oct.hull with valid := Oct.faces.tail } from
      (pop_blacklist _ _).trans (congrArg (fun v => { Oct.hull with valid := v }) oct_blacklist)]
    exact (pop_blacklist _ _).trans (congrArg (fun v => { Oct.hull with valid := v }) hb)
  rw [hp]
  have hsub : ∀ f ∈ v, f ∈ Oct.faces := by decide +kernel
  obtain ⟨p, h1, h2⟩ := C103_position { Oct.hull with valid := v } (oct_triangulated _ hsub (by decide))
    (by show ∀ x, rimDegree v x ≠ 1; decide +kernel) ⟨0, by show rimDegree v 0 ≠ 0 ∧ rimDegree v 0 ≠ 3; decide +kernel⟩
  rw [h1, h2]
  have : (v.map (weightedNormal Oct.pts)).sum = 0 := by
    rw [List.map_congr_left fun f hf => oct_weighted f (hsub f hf)]
    funext c
    fin_cases c <;> simp [hv, Oct.pts, Fin.sum_univ_three]
  show Except.ok (-((1 / _ ^ 3) • (v.map (weightedNormal Oct.pts)).sum)) = _
  rw [this, smul_zero, neg_zero]

/-- The corner of a box, cut off obliquely: three faces in the coordinate planes and one slanted face. -/
noncomputable def cornerPts : Fin 4 → Vec3 := ![![-1, -1, -1], ![9, -1, -1], ![-1, 9, -1], ![-1, -1, 19]]

/-- Its faces, the slanted one last. -/
def cornerFaces : List (Face 4) := [![0, 1, 2], ![0, 1, 3], ![0, 2, 3], ![1, 2, 3]]

/-- The setup with the listener inside, at the origin; the slanted face has been removed from the valid ones. -/
noncomputable def cornerHull : Hull 4 :=
  { points := cornerPts, listener := 0, d := fun l => norm3 (cornerPts l), a := 1, simplices := cornerFaces,
    centroids := calculateCentroids cornerPts cornerFaces, faceAreas := calculateFaceAreas cornerPts cornerFaces,
    faceNormals := calculateFaceNormals cornerPts cornerFaces, barycenter := calculateBarycenter cornerPts, encloses := cornerFaces,
    valid := cornerFaces.take 3, invBase := none, charOrder := none }

theorem corner_bary : calculateBarycenter cornerPts = ![3 / 2, 3 / 2, 4] := by
  funext c
  unfold calculateBarycenter
  rw [Fin.sum_univ_four]
  fin_cases c <;> simp [cornerPts] <;> norm_num

theorem corner_weighted : weightedNormal cornerPts ![0, 1, 2] = ![0, 0, -5000] ∧ weightedNormal cornerPts ![0, 1, 3] = ![0, -20000, 0] ∧
    weightedNormal cornerPts ![0, 2, 3] = ![-20000, 0, 0] := by
  have area : ∀ (p q r : Vec3) (a : ℝ), 0 ≤ a → (crossProduct (q - p) (r - p)) ⬝ᵥ (crossProduct (q - p) (r - p)) = a ^ 2 →
      areaTriangle p q r = a / 2 := by
    intro p q r a ha h
    unfold areaTriangle norm3
    rw [h, Real.sqrt_sq ha]
    ring
  unfold weightedNormal
  rw [corner_bary]
  refine ⟨?_, ?_, ?_⟩
  · rw [faceNormal_coords _ _ _ _ ![-1, -1, -1] ![9, -1, -1] ![-1, 9, -1] ![0, 0, 100] rfl rfl rfl (by simp) (by simp) (by simp; norm_num),
      if_pos (by simp; norm_num), area _ _ _ 100 (by norm_num) (by simp [cornerPts, cross_apply, dotProduct, Fin.sum_univ_three]; norm_num)]
    funext c; fin_cases c <;> simp; norm_num
  · rw [faceNormal_coords _ _ _ _ ![-1, -1, -1] ![9, -1, -1] ![-1, -1, 19] ![0, -200, 0] rfl rfl rfl (by simp) (by simp; norm_num) (by simp),
      if_neg (by simp; norm_num), area _ _ _ 200 (by norm_num) (by simp [cornerPts, cross_apply, dotProduct, Fin.sum_univ_three]; norm_num)]
    funext c; fin_cases c <;> simp; norm_num
  · rw [faceNormal_coords _ _ _ _ ![-1, -1, -1] ![-1, 9, -1] ![-1, -1, 19] ![200, 0, 0] rfl rfl rfl (by simp; norm_num) (by simp) (by simp),
      if_pos (by simp; norm_num), area _ _ _ 200 (by norm_num) (by simp [cornerPts, cross_apply, dotProduct, Fin.sum_univ_three]; norm_num)]
    funext c; fin_cases c <;> simp; norm_num

/-- C103, negation: the imaginary loudspeaker is not opposite to the area vectors of the valid faces, nor in the direction of the normal
of the missing face: the normals have already the length of twice the area, so that every face counts with the square of its area. Here
the missing face has the normal `(2, 2, 1)`, but the imaginary loudspeaker lies in the direction `(4, 4, 1)`. -/
theorem C103_direction_fails : ∃ h : Hull 4, Triangulated h ∧
    (h.simplices.filter (· ∉ h.valid)).map (fun f => crossProduct (h.points (f 1) - h.points (f 0)) (h.points (f 2) - h.points (f 0)))
      = [(100 : ℝ) • ![2, 2, 1]] ∧
    ∃ c : ℝ, 0 < c ∧ findImaginaryLoudspeaker h = .ok (c • ![4, 4, 1]) ∧ ¬ ∃ k : ℝ, c • ![4, 4, 1] = k • (![2, 2, 1] : Vec3) := by
  have ht : Triangulated cornerHull :=
    { inj := by show ∀ f ∈ cornerFaces, Function.Injective f; decide +kernel
      nodup := by show cornerFaces.Nodup; decide
      once := by show ∀ f ∈ cornerFaces, ∀ g ∈ cornerFaces, corners f = corners g → f = g; decide +kernel
      areas := rfl
      normals := rfl
      sub := fun f hf => List.mem_of_mem_take hf
      vnodup := by show (cornerFaces.take 3).Nodup; decide }
  refine ⟨cornerHull, ht, ?_, ?_⟩
  · have : cornerFaces.filter (· ∉ cornerFaces.take 3) = [![1, 2, 3]] := by decide +kernel
    show (cornerFaces.filter (· ∉ cornerFaces.take 3)).map _ = _
    rw [this, List.map_singleton]
    congr 1
    funext c
    fin_cases c <;> simp [cornerHull, cornerPts, cross_apply] <;> norm_num
  · have hpos : 0 < rimDist cornerHull := by
      have hd : ∀ l, 0 < cornerHull.d l := by
        intro l
        show 0 < norm3 (cornerPts l)
        unfold norm3
        refine Real.sqrt_pos.2 ?_
        fin_cases l <;> simp [cornerPts, dotProduct, Fin.sum_univ_three] <;> norm_num
      have hf : ∀ f, 0 < faceDist cornerHull.d f := fun f => by
        unfold faceDist
        have := hd (f 0); have := hd (f 1); have := hd (f 2)
        positivity
      unfold rimDist
      have h1 := hf ![0, 1, 2]; have h2 := hf ![0, 1, 3]; have h3 := hf ![0, 2, 3]
      show 0 < ((cornerFaces.take 3).map (faceDist cornerHull.d)).sum / ((cornerFaces.take 3).length : ℝ)
      simp only [cornerFaces, List.take_succ_cons, List.take_zero, List.map_cons, List.map_nil, List.sum_cons, List.sum_nil, List.length_cons,
        List.length_nil]
      positivity
    obtain ⟨p, h1, h2⟩ := C103_position cornerHull ht (by show ∀ x, rimDegree (cornerFaces.take 3) x ≠ 1; decide +kernel)
      ⟨1, by show rimDegree (cornerFaces.take 3) 1 ≠ 0 ∧ rimDegree (cornerFaces.take 3) 1 ≠ 3; decide +kernel⟩
    have hc : 0 < 5000 / rimDist cornerHull ^ 3 := by positivity
    refine ⟨5000 / rimDist cornerHull ^ 3, hc, ?_, fun ⟨k, hk⟩ => ?_⟩
    · rw [h1, h2]
      congr 1
      obtain ⟨w1, w2, w3⟩ := corner_weighted
      have hs : (cornerHull.valid.map (weightedNormal cornerHull.points)).sum = ![-20000, -20000, -5000] := by
        show ([![0, 1, 2], ![0, 1, 3], ![0, 2, 3]].map (weightedNormal cornerPts)).sum = _
        simp only [List.map_cons, List.map_nil, List.sum_cons, List.sum_nil, w1, w2, w3]
        funext c; fin_cases c <;> simp
      rw [hs]
      funext c
      fin_cases c <;> simp <;> ring
    · have e0 := congrFun hk 0
      have e2 := congrFun hk 2
      simp at e0 e2
      linarith

end Verif.Props
