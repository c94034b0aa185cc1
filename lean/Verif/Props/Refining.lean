import Verif.Props.Renumbered
import Verif.Props.Triangles

/-! Refining the triangulation with `pop_triangles`, and what it does to panning: C164. -/

namespace Verif.Props
open Decoder Utils Matrix Real

/-- The arguments of one `pop_triangles` call. -/
structure Limits where
  normal : Option ℝ
  aperture : Option ℝ
  opening : Option ℝ
  blacklist : Option (List ℕ)

/-- A sequence of `pop_triangles` calls. -/
noncomputable def popAll {L : ℕ} (h : Hull L) (cs : List Limits) : Hull L :=
  cs.foldl (fun h c => popTriangles h c.normal c.aperture c.opening c.blacklist) h

/-- The face meets the limits of all calls. -/
def MeetsAll {L : ℕ} (h : Hull L) (cs : List Limits) (f : Face L) : Prop := ∀ c ∈ cs, Passes h c.normal c.aperture c.opening c.blacklist f

theorem passes_valid {L : ℕ} (h : Hull L) (v : List (Face L)) (n a o : Option ℝ) (b : Option (List ℕ)) (f : Face L) :
    Passes { h with valid := v } n a o b f ↔ Passes h n a o b f :=
  ⟨fun hp => ⟨hp.normal, hp.aperture, hp.opening, hp.blacklist⟩, fun hp => ⟨hp.normal, hp.aperture, hp.opening, hp.blacklist⟩⟩

open Classical in
theorem popAll_eq {L : ℕ} : ∀ (cs : List Limits) {h : Hull L}, WellFormed h → popAll h cs = { h with valid := h.valid.filter fun f => decide (MeetsAll h cs f) }
  | [], h, _ => by
    have : (h.valid.filter fun f => decide (MeetsAll h [] f)) = h.valid := List.filter_eq_self.2 fun f _ => by
      simp only [decide_eq_true_eq]; exact fun c hc => absurd hc (List.not_mem_nil)
    rw [this]; rfl
  | c :: cs, h, hw => by
    have h1 := popAll_eq cs (C35_sublist hw c.normal c.aperture c.opening c.blacklist).2
    change popAll (popTriangles h c.normal c.aperture c.opening c.blacklist) cs = _
    rw [h1, C35_survive hw]
    congr 1
    simp only [List.filter_filter]
    refine List.filter_congr fun f _ => ?_
    rw [← Bool.decide_and]
    refine decide_eq_decide.2 ⟨fun ⟨h2, h3⟩ => ?_, fun h2 => ⟨fun c' hc' => ?_, h2 c (List.mem_cons_self ..)⟩⟩
    · intro c' hc'
      rcases List.mem_cons.1 hc' with rfl | hc'
      · exact h3
      · exact (passes_valid _ _ _ _ _ _ _).1 (h2 c' hc')
    · exact (passes_valid _ _ _ _ _ _ _).2 (h2 c' (List.mem_cons_of_mem _ hc'))

/-- **C164**: after any sequence of `pop_triangles` calls exactly the faces that meet the limits of all calls are left, in their order; hence the order of the calls, and how limits are
distributed over calls, do not matter. -/
theorem C164_order {L : ℕ} {h : Hull L} (hw : WellFormed h) (cs : List Limits) :
    (∀ f, f ∈ (popAll h cs).valid ↔ f ∈ h.valid ∧ MeetsAll h cs f) ∧ (popAll h cs).valid.Sublist h.valid ∧
    (∀ cs', cs'.Perm cs → popAll h cs' = popAll h cs) ∧
    ∀ n a o b, popAll h [⟨n, none, none, none⟩, ⟨none, a, none, none⟩, ⟨none, none, o, none⟩, ⟨none, none, none, b⟩] = popTriangles h n a o b := by
  classical
  refine ⟨fun f => ?_, ?_, fun cs' hp => ?_, fun n a o b => ?_⟩
  · rw [popAll_eq cs hw, List.mem_filter, decide_eq_true_eq]
  · rw [popAll_eq cs hw]; exact List.filter_sublist
  · rw [popAll_eq cs hw, popAll_eq cs' hw]
    have : ∀ f, MeetsAll h cs' f ↔ MeetsAll h cs f := fun f => ⟨fun hm c hc => hm c (hp.mem_iff.2 hc), fun hm c hc => hm c (hp.mem_iff.1 hc)⟩
    simp only [this]
  · rw [popAll_eq _ hw, C35_survive hw]
    congr 1
    refine List.filter_congr fun f _ => decide_eq_decide.2 ⟨fun hm => ?_, fun hp c hc => ?_⟩
    · have h1 := hm ⟨n, none, none, none⟩ (by simp)
      have h2 := hm ⟨none, a, none, none⟩ (by simp)
      have h3 := hm ⟨none, none, o, none⟩ (by simp)
      have h4 := hm ⟨none, none, none, b⟩ (by simp)
      exact ⟨h1.normal, h2.aperture, h3.opening, h4.blacklist⟩
    · simp only [List.mem_cons, List.not_mem_nil, or_false] at hc
      rcases hc with rfl | rfl | rfl | rfl
      · exact ⟨hp.normal, nofun, nofun, nofun⟩
      · exact ⟨nofun, hp.aperture, nofun, nofun⟩
      · exact ⟨nofun, nofun, hp.opening, nofun⟩
      · exact ⟨nofun, nofun, nofun, hp.blacklist⟩

theorem search_first {L : ℕ} (lstsq : Mat3 → Mat3) (p : ℝ) (points : Fin L → Vec3) (s : Vec3) (f : Face L) (post : List (Face L)) (g : Vec3)
    (hg : tryFace p (lstsq (baseMat points f)).transpose s = some g) :
    ∀ (pre : List (Face L)) (i : ℕ), (∀ f' ∈ pre, tryFace p (lstsq (baseMat points f')).transpose s = none) →
      searchFaces p s (invertTriplets lstsq (pre ++ f :: post) points) i = some (i + pre.length, g)
  | [], i, _ => by
    change (match tryFace p (lstsq (baseMat points f)).transpose s with | some g => some (i, g) | none => _) = _
    rw [hg]; rfl
  | f' :: pre, i, h => by
    change (match tryFace p (lstsq (baseMat points f')).transpose s with | some g => some (i, g) | none => _) = _
    rw [h f' (List.mem_cons_self ..)]
    change searchFaces p s (invertTriplets lstsq (pre ++ f :: post) points) (i + 1) = _
    rw [search_first lstsq p points s f post g hg pre (i + 1) fun f'' hf => h f'' (List.mem_cons_of_mem _ hf), List.length_cons, Nat.add_assoc, Nat.add_comm 1]

/-- The row of a source depends on the first face that takes it only. -/
theorem row_first {L : ℕ} (lstsq : Mat3 → Mat3) (p : ℝ) (points : Fin L → Vec3) (s : Vec3) (f : Face L) (g : Vec3)
    (hg : tryFace p (lstsq (baseMat points f)).transpose s = some g) (pre post : List (Face L))
    (hpre : ∀ f' ∈ pre, tryFace p (lstsq (baseMat points f')).transpose s = none) :
    vbapRow (pre ++ f :: post) (invertTriplets lstsq (pre ++ f :: post) points) p s = .ok (writeRow [(f 0, g 0), (f 1, g 1), (f 2, g 2)]) := by
  unfold vbapRow faceWrites
  rw [search_first lstsq p points s f post g hg pre 0 hpre, Nat.zero_add]
  simp only [List.getElem?_append_right (Nat.le_refl _), Nat.sub_self, List.getElem?_cons_zero]
  rfl

theorem row_none {L : ℕ} (lstsq : Mat3 → Mat3) (p : ℝ) (points : Fin L → Vec3) (s : Vec3) (valid : List (Face L))
    (hn : ∀ f ∈ valid, tryFace p (lstsq (baseMat points f)).transpose s = none) :
    vbapRow valid (invertTriplets lstsq valid points) p s = .ok 0 := by
  have key : ∀ (v : List (Face L)) (i : ℕ), (∀ f ∈ v, tryFace p (lstsq (baseMat points f)).transpose s = none) →
      searchFaces p s (invertTriplets lstsq v points) i = none := by
    intro v
    induction v with
    | nil => intro i _; rfl
    | cons f v ih =>
      intro i h
      change (match tryFace p (lstsq (baseMat points f)).transpose s with | some g => some (i, g) | none => _) = _
      rw [h f (List.mem_cons_self ..)]
      exact ih (i + 1) fun f' hf => h f' (List.mem_cons_of_mem _ hf)
  unfold vbapRow faceWrites
  rw [key valid 0 hn]; rfl

theorem hull_row {L : ℕ} (lstsq : Mat3 → Mat3) (p : ℝ) (h : Hull L) (hb : h.invBase = none) (s : Vec3) (g : Fin L → ℝ)
    (hg : vbapRow h.valid (invertTriplets lstsq h.valid h.points) p s = .ok g) :
    (vbapHull lstsq p [s] none h).1 = .ok [fun l => h.d l ^ h.a * g l] := by
  unfold vbapHull vbapSerial vbase
  simp only [Option.getD_none, hb, List.mapM_cons, List.mapM_nil, hg]
  rfl

/-- **C164**: a source whose triangle survives all calls is played with the very gains it had before; a source that lies in removed triangles only is not played at all; and a source
whose triangle is removed although a later, kept one contains it too is played by the kept one. -/
theorem C164_kept {L : ℕ} (lstsq : Mat3 → Mat3) (hl : LstsqSpec lstsq) (p : ℝ) {h : Hull L} (hw : WellFormed h) (hb : h.invBase = none)
    (hli : ∀ f ∈ h.valid, LinearIndependent ℝ fun i => h.points (f i)) (cs : List Limits) (s : Vec3) :
    (∀ pre f post, h.valid = pre ++ f :: post → (∀ f' ∈ pre, ¬ Inside p h.points f' s) → Inside p h.points f s → MeetsAll h cs f →
      (vbapHull lstsq p [s] none (popAll h cs)).1 = (vbapHull lstsq p [s] none h).1 ∧ ∃ row, (vbapHull lstsq p [s] none h).1 = .ok [row]) ∧
    ((∀ f ∈ h.valid, MeetsAll h cs f → ¬ Inside p h.points f s) → (vbapHull lstsq p [s] none (popAll h cs)).1 = .ok [0]) ∧
    (∀ pre f post, h.valid = pre ++ f :: post → (∀ f' ∈ pre, MeetsAll h cs f' → ¬ Inside p h.points f' s) → Inside p h.points f s → MeetsAll h cs f →
      (vbapHull lstsq p [s] none (popAll h cs)).1 = (vbapHull lstsq p [s] none { h with valid := [f] }).1) := by
  classical
  have hno : ∀ f ∈ h.valid, ¬ Inside p h.points f s → tryFace p (lstsq (baseMat h.points f)).transpose s = none := by
    intro f hf hn
    rw [inside_iff hl p h.points f (hli f hf)] at hn
    exact Option.not_isSome_iff_eq_none.1 hn
  have hyes : ∀ f ∈ h.valid, Inside p h.points f s → ∃ g, tryFace p (lstsq (baseMat h.points f)).transpose s = some g := by
    intro f hf hn
    rw [inside_iff hl p h.points f (hli f hf)] at hn
    exact Option.isSome_iff_exists.1 hn
  have hpop : popAll h cs = { h with valid := h.valid.filter fun f => decide (MeetsAll h cs f) } := popAll_eq cs hw
  have third : ∀ pre f post, h.valid = pre ++ f :: post → (∀ f' ∈ pre, MeetsAll h cs f' → ¬ Inside p h.points f' s) → Inside p h.points f s → MeetsAll h cs f →
      ∀ g, tryFace p (lstsq (baseMat h.points f)).transpose s = some g →
      (vbapHull lstsq p [s] none (popAll h cs)).1 = .ok [fun l => h.d l ^ h.a * writeRow [(f 0, g 0), (f 1, g 1), (f 2, g 2)] l] := by
    intro pre f post hv hpre hin hm g hg
    have hv2 : (h.valid.filter fun f => decide (MeetsAll h cs f)) =
        (pre.filter fun f => decide (MeetsAll h cs f)) ++ f :: (post.filter fun f => decide (MeetsAll h cs f)) := by
      rw [hv, List.filter_append, List.filter_cons_of_pos (by simpa using hm)]
    rw [hpop]
    refine hull_row lstsq p { h with valid := h.valid.filter fun f => decide (MeetsAll h cs f) } hb s _ ?_
    change vbapRow (h.valid.filter _) (invertTriplets lstsq (h.valid.filter _) h.points) p s = _
    rw [hv2]
    refine row_first lstsq p h.points s f g hg _ _ fun f' hf' => ?_
    rw [List.mem_filter, decide_eq_true_eq] at hf'
    exact hno f' (by rw [hv]; exact List.mem_append_left _ hf'.1) (hpre f' hf'.1 hf'.2)
  refine ⟨fun pre f post hv hpre hin hm => ?_, fun hn => ?_, fun pre f post hv hpre hin hm => ?_⟩
  · have hf : f ∈ h.valid := by rw [hv]; simp
    obtain ⟨g, hg⟩ := hyes f hf hin
    have h1 : (vbapHull lstsq p [s] none h).1 = .ok [fun l => h.d l ^ h.a * writeRow [(f 0, g 0), (f 1, g 1), (f 2, g 2)] l] := by
      refine hull_row lstsq p h hb s _ ?_
      rw [hv]
      exact row_first lstsq p h.points s f g hg pre post fun f' hf' => hno f' (by rw [hv]; exact List.mem_append_left _ hf') (hpre f' hf')
    exact ⟨(third pre f post hv (fun f' hf' _ => hpre f' hf') hin hm g hg).trans h1.symm, _, h1⟩
  · rw [hpop]
    have := hull_row lstsq p { h with valid := h.valid.filter fun f => decide (MeetsAll h cs f) } hb s 0 (row_none lstsq p h.points s _ fun f hf => by
      rw [List.mem_filter, decide_eq_true_eq] at hf
      exact hno f hf.1 (hn f hf.1 hf.2))
    rw [this]
    congr 2
    funext l; simp
  · have hf : f ∈ h.valid := by rw [hv]; simp
    obtain ⟨g, hg⟩ := hyes f hf hin
    rw [third pre f post hv hpre hin hm g hg]
    exact (hull_row lstsq p { h with valid := [f] } hb s _ (row_first lstsq p h.points s f g hg [] [] nofun)).symm

theorem oct_meets (e : ℕ) (f : Face 6) : MeetsAll Oct.hull [⟨none, none, none, some [e]⟩] f ↔ ∀ i, (f i : ℕ) ≠ e := by
  constructor
  · intro hm
    obtain ⟨e', he, h1⟩ := (hm _ (List.mem_singleton.2 rfl)).blacklist [e] rfl
    rw [List.mem_singleton.1 he] at h1; exact h1
  · intro h1 c hc
    rw [List.mem_singleton.1 hc]
    refine ⟨nofun, nofun, nofun, fun bl hbl => ?_⟩
    cases hbl
    exact ⟨e, List.mem_singleton.2 rfl, h1⟩

/-- `C164_order`: two calls on the octahedron, in both orders. -/
example : popAll Oct.hull [⟨none, none, none, some [1]⟩, ⟨some 85, some 90, none, none⟩] = popAll Oct.hull [⟨some 85, some 90, none, none⟩, ⟨none, none, none, some [1]⟩] :=
  (C164_order oct_wf _).2.2.1 _ (List.Perm.swap ..)

/-- `C164_kept`, the silent source: with the front loudspeaker's triangles removed a source in front, to the left and above is not played any more. -/
example (lstsq : Mat3 → Mat3) (hl : LstsqSpec lstsq) :
    (vbapHull lstsq 2 [![1, 2, 3]] none (popAll Oct.hull [⟨none, none, none, some [0]⟩])).1 = .ok [0] :=
  (C164_kept lstsq hl 2 oct_wf rfl Oct.li _ _).2.1 fun f hf hm hin => by
    rw [oct_inside f hf hin, oct_meets] at hm
    exact hm 0 rfl

/-- `C164_kept`, the source that is played as before: the triangles at the loudspeaker behind are removed. -/
example (lstsq : Mat3 → Mat3) (hl : LstsqSpec lstsq) :
    (vbapHull lstsq 2 [![1, 2, 3]] none (popAll Oct.hull [⟨none, none, none, some [1]⟩])).1 = (vbapHull lstsq 2 [![1, 2, 3]] none Oct.hull).1 := by
  obtain ⟨pre, post, hv⟩ := List.append_of_mem (show (![0, 2, 4] : Face 6) ∈ Oct.faces by decide)
  have hnd : Oct.faces.Nodup := by decide
  refine ((C164_kept lstsq hl 2 oct_wf rfl Oct.li _ _).1 pre ![0, 2, 4] post hv (fun f' hf' hin => ?_) ?_ ((oct_meets 1 _).2 (by decide))).1
  · have h1 := oct_inside f' (by rw [hv]; exact List.mem_append_left _ hf') hin
    rw [hv, List.nodup_append] at hnd
    exact hnd.2.2 _ hf' _ (List.mem_cons_self ..) h1
  · have hn : npNorm 2 (![1, 2, 3] : Vec3) = √14 := by
      unfold npNorm
      rw [← Real.sqrt_eq_rpow, Fin.sum_univ_three]
      congr 1
      simp
      norm_num
    refine ⟨![1, 2, 3], ?_, ?_, ?_⟩
    · funext c; fin_cases c <;> simp [Fin.sum_univ_three, Oct.hull, Oct.pts]
    · rw [hn]; positivity
    · intro i
      rw [hn]
      refine lt_of_lt_of_le (by norm_num : (-10e-6 : ℝ) < 0) (div_nonneg ?_ (Real.sqrt_nonneg _))
      fin_cases i <;> simp

end Verif.Props
