import Verif.Proofs.Vbap
import Verif.Props.SphDesigns

/-!
C29 (VBAP renders the source direction), C30 (VBAP finds a triplet), C31 (schedules), C34 (VBIP).
-/

namespace Verif.Props
open Real Verif.Sph Verif.Utils Verif.Decoder

/-- The stored inverses of a setup, if any, belong to its current valid simplices and points. True of every new setup and after
every `vbap` call with the default simplices. -/
def CacheOk {L : ℕ} (lstsq : Mat3 → Mat3) (h : Hull L) : Prop :=
  ∀ b, h.invBase = some b → b = invertTriplets lstsq h.valid h.points

/-- `np.linalg.lstsq(v, np.eye(3))[0]`. -/
def LstsqSpec (lstsq : Mat3 → Mat3) : Prop := ∀ V, IsLstsq V 1 (lstsq V)

theorem exists_lstsq3 : ∃ lstsq : Mat3 → Mat3, LstsqSpec lstsq := by
  choose l hl using fun V : Mat3 => exists_lstsq V (1 : Mat3)
  exact ⟨l, hl⟩

/-- Gains `g` (one per loudspeaker) which render the direction of `s` on one face. -/
structure RendersOn {L : ℕ} (p : ℝ) (points : Fin L → Vec3) (f : Face L) (s : Vec3) (g : Fin L → ℝ) : Prop where
  support : ∀ l, g l ≠ 0 → ∃ i, f i = l
  norm : npNorm p g = 1
  positive : ∀ l, g l > -10e-6
  direction : LinearIndependent ℝ (fun i => points (f i)) → ∃ c : ℝ, 0 < c ∧ ∑ l, g l • points l = c • s

/-- The source is inside the face up to the tolerance: its coordinates in the triplet, normalised, exceed `-10e-6`. -/
def Inside {L : ℕ} (p : ℝ) (points : Fin L → Vec3) (f : Face L) (s : Vec3) : Prop :=
  ∃ c : Vec3, ∑ i, c i • points (f i) = s ∧ npNorm p c ≠ 0 ∧ ∀ i, c i / npNorm p c > -10e-6

theorem vbase_ok {L : ℕ} {lstsq : Mat3 → Mat3} {h : Hull L} (hc : CacheOk lstsq h) :
    vbase lstsq h h.valid = invertTriplets lstsq h.valid h.points := by
  unfold vbase
  cases hb : h.invBase with
  | none => rfl
  | some b => exact hc b hb

theorem row_cases {L : ℕ} (lstsq : Mat3 → Mat3) {p : ℝ} (hp : 0 < p)
    (points : Fin L → Vec3) (valid : List (Face L)) (hinj : ∀ f ∈ valid, Function.Injective f) (s : Vec3) :
    (vbapRow valid (invertTriplets lstsq valid points) p s = .ok 0
      ∧ ∀ f ∈ valid, tryFace p (lstsq (baseMat points f)).transpose s = none) ∨
    ∃ (k : ℕ) (f : Face L) (g : Fin L → ℝ), valid[k]? = some f ∧ vbapRow valid (invertTriplets lstsq valid points) p s = .ok g
      ∧ (tryFace p (lstsq (baseMat points f)).transpose s).isSome
      ∧ (∀ (j : ℕ) (f' : Face L), j < k → valid[j]? = some f' → tryFace p (lstsq (baseMat points f')).transpose s = none)
      ∧ (∀ l, g l ≠ 0 → ∃ i, f i = l) ∧ npNorm p g = 1 ∧ (∀ l, g l > -10e-6)
      ∧ ∀ i, g (f i) = (lstsq (baseMat points f)).transpose.mulVec s i / npNorm p ((lstsq (baseMat points f)).transpose.mulVec s) := by
  rcases searchFaces_spec p s (invertTriplets lstsq valid points) 0 with ⟨h1, h2⟩ | ⟨k, B, w, h1, h2, h3, h4⟩
  · left
    refine ⟨?_, fun f hf => h2 _ (List.mem_map.2 ⟨f, hf, rfl⟩)⟩
    unfold vbapRow faceWrites
    rw [h1]; rfl
  · right
    unfold invertTriplets at h1
    rw [List.getElem?_map, Option.map_eq_some_iff] at h1
    obtain ⟨f, hf, rfl⟩ := h1
    have hfi : Function.Injective f := hinj f (List.mem_of_getElem? hf)
    obtain ⟨hn, hpos, hw⟩ := tryFace_some h2
    refine ⟨k, f, writeRow [(f 0, w 0), (f 1, w 1), (f 2, w 2)], hf, ?_, ?_, ?_, ?_, ?_, ?_, ?_⟩
    · unfold vbapRow faceWrites
      rw [h4]
      simp only [Nat.zero_add, hf]
      rfl
    · rw [show baseMat points f = Matrix.of fun i => points (f i) from rfl, h2]; rfl
    · intro j f' hj hf'
      exact h3 j _ hj (by unfold invertTriplets; rw [List.getElem?_map, hf']; rfl)
    · intro l hl
      by_contra hne
      exact hl (writeRow_off f w l fun i hi => hne ⟨i, hi⟩)
    · rw [npNorm_face hp f hfi _ fun l hl => writeRow_off f w l hl]
      simp only [writeRow_on f hfi]
      rw [hw]
      exact npNorm_div hp _ hn
    · intro l
      by_cases hl : ∃ i, f i = l
      · obtain ⟨i, rfl⟩ := hl
        rw [writeRow_on f hfi]; exact hpos i
      · rw [writeRow_off f w l fun i hi => hl ⟨i, hi⟩]; norm_num
    · intro i
      rw [writeRow_on f hfi, hw]; rfl

theorem inside_iff {L : ℕ} {lstsq : Mat3 → Mat3} (hl : LstsqSpec lstsq) (p : ℝ) (points : Fin L → Vec3) (f : Face L)
    (hf : LinearIndependent ℝ fun i => points (f i)) (s : Vec3) :
    Inside p points f s ↔ (tryFace p (lstsq (baseMat points f)).transpose s).isSome := by
  rw [tryFace_iff]
  constructor
  · rintro ⟨c, h1, h2, h3⟩
    rw [(proj_coords hl points f hf s c).2 h1]; exact ⟨h2, h3⟩
  · intro h
    exact ⟨_, (proj_coords hl points f hf s _).1 rfl, h.1, h.2⟩

/-- C29: every row is, up to the distance compensation `d**a`, either zero or a set of gains rendering the source direction on one
valid simplex. -/
theorem C29_vbap {L : ℕ} (lstsq : Mat3 → Mat3) (hl : LstsqSpec lstsq) {p : ℝ} (hp : 0 < p) (h : Hull L) (hc : CacheOk lstsq h)
    (hinj : ∀ f ∈ h.valid, Function.Injective f) (src : List Vec3) :
    ∃ rows, (vbapHull lstsq p src none h).1 = .ok rows ∧ rows.length = src.length ∧
      ∀ (i : ℕ) (s : Vec3) (row : Fin L → ℝ), src[i]? = some s → rows[i]? = some row →
        ∃ g : Fin L → ℝ, row = (fun l => h.d l ^ h.a * g l) ∧ (g = 0 ∨ ∃ f ∈ h.valid, RendersOn p h.points f s g) := by
  have hrow : ∀ s : Vec3, ∃ g, vbapRow h.valid (invertTriplets lstsq h.valid h.points) p s = .ok g
      ∧ (g = 0 ∨ ∃ f ∈ h.valid, RendersOn p h.points f s g) := by
    intro s
    rcases row_cases lstsq hp h.points h.valid hinj s with ⟨h1, _⟩ | ⟨k, f, g, hf, h1, h2, _, h4, h5, h6, h7⟩
    · exact ⟨0, h1, .inl rfl⟩
    · refine ⟨g, h1, .inr ⟨f, List.mem_of_getElem? hf, h4, h5, h6, fun hli => ?_⟩⟩
      set q := (lstsq (baseMat h.points f)).transpose.mulVec s
      have hfi : Function.Injective f := hinj f (List.mem_of_getElem? hf)
      have hn : npNorm p q ≠ 0 := ((tryFace_iff p _ s).1 h2).1
      have hn' : 0 < npNorm p q := lt_of_le_of_ne (npNorm_nonneg p q) (Ne.symm hn)
      refine ⟨1 / npNorm p q, by positivity, ?_⟩
      rw [sum_face f hfi (fun l => g l • h.points l)]
      · have := (proj_coords hl h.points f hli s q).1 rfl
        rw [← this, Finset.smul_sum]
        refine Finset.sum_congr rfl fun i _ => ?_
        rw [h7 i, smul_smul, one_div, div_eq_inv_mul]
      · intro l hl'
        by_cases hg : g l = 0
        · rw [hg, zero_smul]
        · obtain ⟨i, hi⟩ := h4 l hg
          exact absurd hi (hl' i)
  obtain ⟨ys, h1, h2, h3⟩ := mapM_ok (vbapRow h.valid (invertTriplets lstsq h.valid h.points) p) src
    fun s _ => (hrow s).imp fun g hg => hg.1
  refine ⟨ys.map fun r l => h.d l ^ h.a * r l, ?_, by simp [h2], ?_⟩
  · unfold vbapHull vbapSerial
    simp only [Option.getD_none, vbase_ok hc, h1]
    rfl
  · intro i s row hs hr
    rw [List.getElem?_map, Option.map_eq_some_iff] at hr
    obtain ⟨g, hg, rfl⟩ := hr
    refine ⟨g, rfl, ?_⟩
    obtain ⟨g', hg', hcase⟩ := hrow s
    have := h3 i s g hs hg
    rw [hg'] at this
    cases this
    exact hcase

/-- C30: the row belongs to the *first* valid simplex that contains the source up to the tolerance; it is all zero exactly if there
is none. -/
theorem C30_first {L : ℕ} (lstsq : Mat3 → Mat3) (hl : LstsqSpec lstsq) {p : ℝ} (hp : 0 < p) (h : Hull L) (hc : CacheOk lstsq h)
    (hinj : ∀ f ∈ h.valid, Function.Injective f) (hli : ∀ f ∈ h.valid, LinearIndependent ℝ fun i => h.points (f i))
    (hd : ∀ l, h.d l = norm3 (h.points l)) (s : Vec3) :
    ∃ row, (vbapHull lstsq p [s] none h).1 = .ok [row] ∧
      ((row = 0 ∧ ∀ f ∈ h.valid, ¬ Inside p h.points f s) ∨
       (row ≠ 0 ∧ ∃ (k : ℕ) (f : Face L), h.valid[k]? = some f ∧ Inside p h.points f s ∧ (∀ l, row l ≠ 0 → ∃ i, f i = l)
          ∧ ∀ (j : ℕ) (f' : Face L), j < k → h.valid[j]? = some f' → ¬ Inside p h.points f' s)) := by
  have hrun : ∀ g, vbapRow h.valid (invertTriplets lstsq h.valid h.points) p s = .ok g →
      (vbapHull lstsq p [s] none h).1 = .ok [fun l => h.d l ^ h.a * g l] := by
    intro g hg
    unfold vbapHull vbapSerial
    simp only [Option.getD_none, vbase_ok hc, List.mapM_cons, List.mapM_nil, hg]
    rfl
  rcases row_cases lstsq hp h.points h.valid hinj s with ⟨h1, h2⟩ | ⟨k, f, g, hf, h1, h2, h3, h4, h5, _, _⟩
  · refine ⟨_, hrun 0 h1, .inl ⟨by funext l; simp, fun f hf => ?_⟩⟩
    rw [inside_iff hl p h.points f (hli f hf), h2 f hf]; simp
  · have hfm := List.mem_of_getElem? hf
    refine ⟨_, hrun g h1, .inr ⟨?_, k, f, hf, (inside_iff hl p h.points f (hli f hfm) s).2 h2, ?_, ?_⟩⟩
    · intro h0
      have hg0 : g = 0 := by
        funext l
        by_contra hgl
        obtain ⟨i, hi⟩ := h4 l hgl
        have hne : h.points l ≠ 0 := by rw [← hi]; exact (hli f hfm).ne_zero i
        have hdpos : 0 < h.d l := by
          rw [hd l, norm3]
          refine Real.sqrt_pos.2 (lt_of_le_of_ne (Finset.sum_nonneg fun c _ => mul_self_nonneg _) fun h0 => hne ?_)
          exact dotProduct_self_eq_zero.1 h0.symm
        have := congrFun h0 l
        simp only [Pi.zero_apply, mul_eq_zero] at this
        rcases this with h' | h'
        · exact absurd h' (rpow_pos_of_pos hdpos _).ne'
        · exact hgl h'
      rw [hg0, (npNorm_eq_zero hp _).2 rfl] at h5
      exact absurd h5 (by norm_num)
    · intro l hl'
      exact h4 l fun h0 => hl' (by rw [h0, mul_zero])
    · intro j f' hj hf'
      rw [inside_iff hl p h.points f' (hli f' (List.mem_of_getElem? hf')), h3 j f' hj hf']; simp

/-- C30: a non-zero source in the cone of a valid, linearly independent simplex gets a non-zero row. -/
theorem C30_cone {L : ℕ} (lstsq : Mat3 → Mat3) (hl : LstsqSpec lstsq) {p : ℝ} (hp : 0 < p) (h : Hull L) (hc : CacheOk lstsq h)
    (hinj : ∀ f ∈ h.valid, Function.Injective f) (hli : ∀ f ∈ h.valid, LinearIndependent ℝ fun i => h.points (f i))
    (hd : ∀ l, h.d l = norm3 (h.points l)) (s : Vec3) (hs : s ≠ 0) (f : Face L) (hf : f ∈ h.valid) (c : Vec3) (hcpos : ∀ i, 0 ≤ c i)
    (hcone : ∑ i, c i • h.points (f i) = s) :
    ∃ row, (vbapHull lstsq p [s] none h).1 = .ok [row] ∧ row ≠ 0 := by
  obtain ⟨row, h1, h2⟩ := C30_first lstsq hl hp h hc hinj hli hd s
  refine ⟨row, h1, ?_⟩
  rcases h2 with ⟨_, h3⟩ | ⟨h3, _⟩
  · exfalso
    refine h3 f hf ⟨c, hcone, ?_, ?_⟩
    · rw [Ne, npNorm_eq_zero hp]
      rintro rfl
      exact hs (by rw [← hcone]; simp)
    · intro i
      have : 0 ≤ c i / npNorm p c := div_nonneg (hcpos i) (npNorm_nonneg p c)
      linarith
  · exact h3

/-- C30: scaling the sources by positive factors changes nothing, whatever the state of the setup. -/
theorem C30_scale {L : ℕ} (lstsq : Mat3 → Mat3) {p : ℝ} (hp : 0 < p) (h : Hull L) (validArg : Option (List (Face L)))
    (src : List (ℝ × Vec3)) (hpos : ∀ t ∈ src, 0 < t.1) :
    vbapHull lstsq p (src.map fun t => t.1 • t.2) validArg h = vbapHull lstsq p (src.map Prod.snd) validArg h := by
  unfold vbapHull vbapSerial
  have : ∀ (valid : List (Face L)) (invs : List Mat3), (src.map fun t => t.1 • t.2).mapM (vbapRow valid invs p)
      = (src.map Prod.snd).mapM (vbapRow valid invs p) := by
    intro valid invs
    rw [List.mapM_map, List.mapM_map]
    induction src with
    | nil => rfl
    | cons t src ih =>
      rw [List.mapM_cons, List.mapM_cons, ih fun t ht => hpos t (by simp [ht])]
      have : vbapRow valid invs p (t.1 • t.2) = vbapRow valid invs p t.2 := by
        unfold vbapRow faceWrites
        rw [searchFaces_scale hp t.2 (hpos t (by simp))]
      simp only [Function.comp, this]
  simp only [this]

/-! ### C31 -/

theorem interleaving_filter {L : ℕ} {jobs : List (List (Write L))} {t : List (Write L)} (h : Interleaving jobs t)
    (hrow : ∀ (k : ℕ) (js : List (Write L)), jobs[k]? = some js → ∀ w ∈ js, w.row = k) (r : ℕ) :
    t.filter (fun w => decide (w.row = r)) = jobs.getD r [] := by
  induction h with
  | done hd =>
    rename_i jobs
    rw [List.filter_nil]
    by_cases hr : r < jobs.length
    · rw [List.getD_eq_getElem _ _ hr, hd _ (List.getElem_mem hr)]
    · rw [List.getD_eq_default _ _ (by omega)]
  | step hk ht ih =>
    rename_i jobs k w ws t
    have hwk : w.row = k := hrow k _ hk w (by simp)
    have hklt : k < jobs.length := by
      by_contra hlt
      rw [List.getElem?_eq_none (by omega)] at hk; cases hk
    have ih' := ih (by
      intro k' js hjs w' hw'
      rw [List.getElem?_set] at hjs
      split_ifs at hjs with h1 h2
      · cases hjs; subst h1; exact hrow k _ hk w' (by simp [hw'])
      · exact hrow k' js hjs w' hw')
    have hjk : jobs.getD k [] = w :: ws := by rw [List.getD_eq_getElem?_getD, hk]; rfl
    rw [List.getD_eq_getElem?_getD, List.getElem?_set] at ih'
    by_cases hr : k = r
    · subst hr
      rw [if_pos rfl, if_pos hklt] at ih'
      rw [List.filter_cons, if_pos (by simpa using hwk), ih', hjk]; rfl
    · rw [if_neg hr] at ih'
      rw [List.filter_cons, if_neg (by simpa [hwk] using hr), ih', List.getD_eq_getElem?_getD]

theorem runWrites_row {L : ℕ} (t : List (Write L)) (r : ℕ) :
    runWrites t r = writeRow ((t.filter fun w => decide (w.row = r)).map fun w => (w.col, w.val)) := by
  unfold runWrites writeRow
  have key : ∀ (arr : ℕ → Fin L → ℝ), (t.foldl (fun arr w => Function.update arr w.row (Function.update (arr w.row) w.col w.val)) arr) r
      = ((t.filter fun w => decide (w.row = r)).map fun w => (w.col, w.val)).foldl (fun row w => Function.update row w.1 w.2) (arr r) := by
    induction t with
    | nil => intro arr; rfl
    | cons w t ih =>
      intro arr
      rw [List.foldl_cons, ih]
      by_cases hw : w.row = r
      · rw [List.filter_cons, if_pos (by simpa using hw), List.map_cons, List.foldl_cons]
        subst hw
        rw [Function.update_self]
      · rw [List.filter_cons, if_neg (by simpa using hw), Function.update_of_ne (Ne.symm hw)]
  exact key 0

theorem exists_interleaving {α : Type} (jobs : List (List α)) : ∃ t, Interleaving jobs t := by
  induction hn : (jobs.map List.length).sum generalizing jobs with
  | zero =>
    refine ⟨[], .done fun j hj => ?_⟩
    have := List.sum_eq_zero_iff.1 hn j.length (List.mem_map.2 ⟨j, hj, rfl⟩)
    exact List.length_eq_zero_iff.1 this
  | succ n ih =>
    have : ∃ (k : ℕ) (w : α) (ws : List α), jobs[k]? = some (w :: ws) := by
      by_contra hne
      have : ∀ j ∈ jobs, j = [] := by
        intro j hj
        cases j with
        | nil => rfl
        | cons w ws =>
          obtain ⟨k, hk⟩ := List.mem_iff_getElem?.1 hj
          exact absurd ⟨k, w, ws, hk⟩ hne
      have : (jobs.map List.length).sum = 0 := List.sum_eq_zero_iff.2 (by
        intro x hx
        obtain ⟨j, hj, rfl⟩ := List.mem_map.1 hx
        rw [this j hj]; rfl)
      omega
    obtain ⟨k, w, ws, hk⟩ := this
    have hklt : k < jobs.length := by
      by_contra hlt
      rw [List.getElem?_eq_none (by omega)] at hk; cases hk
    obtain ⟨t, ht⟩ := ih (jobs.set k ws) (by
      rw [List.map_set, List.sum_set]
      have hj : jobs[k] = w :: ws := by
        rw [List.getElem?_eq_getElem hklt] at hk; exact Option.some.inj hk
      have : (jobs.map List.length).sum = ((jobs.map List.length).take k).sum + ((jobs.map List.length).drop k).sum := by
        rw [← List.sum_append, List.take_append_drop]
      rw [List.drop_eq_getElem_cons (by simpa using hklt), List.sum_cons, List.getElem_map, hj, List.length_cons] at this
      rw [if_pos (by simpa using hklt)]
      omega)
    exact ⟨w :: t, .step hk ht⟩

theorem jobWrites_ok {L : ℕ} (valid : List (Face L)) (invs : List Mat3) (p : ℝ) (i : ℕ) (s : Vec3) (ws : List (Write L))
    (h : jobWrites valid invs p i s = .ok ws) : (∀ w ∈ ws, w.row = i)
      ∧ vbapRow valid invs p s = .ok (writeRow (ws.map fun w => (w.col, w.val))) := by
  unfold jobWrites at h
  unfold vbapRow
  cases hf : faceWrites valid invs p s with
  | error e => rw [hf] at h; cases h
  | ok fs =>
    rw [hf] at h
    cases h
    refine ⟨?_, ?_⟩
    · intro w hw
      obtain ⟨x, _, rfl⟩ := List.mem_map.1 hw
      rfl
    · show Except.ok _ = Except.ok _
      rw [List.map_map]
      congr 2
      exact (List.map_id fs).symm

theorem jobWrites_err {L : ℕ} (valid : List (Face L)) (invs : List Mat3) (p : ℝ) (i : ℕ) (s : Vec3) (e : PyErr)
    (h : jobWrites valid invs p i s = .error e) : e = .indexError ∧ vbapRow valid invs p s = .error .indexError := by
  unfold jobWrites at h
  unfold vbapRow
  unfold faceWrites at h ⊢
  cases hs : searchFaces p s invs 0 with
  | none => rw [hs] at h; cases h
  | some x =>
    rw [hs] at h
    cases hv : valid[x.1]? with
    | none => simp only [hv] at h ⊢; cases h; exact ⟨rfl, rfl⟩
    | some f => simp only [hv] at h; cases h

theorem vbapRow_err {L : ℕ} (valid : List (Face L)) (invs : List Mat3) (p : ℝ) (s : Vec3) (e : PyErr)
    (h : vbapRow valid invs p s = .error e) : e = .indexError := by
  unfold vbapRow faceWrites at h
  cases hs : searchFaces p s invs 0 with
  | none => rw [hs] at h; cases h
  | some x =>
    rw [hs] at h
    cases hv : valid[x.1]? with
    | none => simp only [hv] at h; cases h; rfl
    | some f => simp only [hv] at h; cases h

/-- C31: for every number of worker processes (at least one) and every interleaving of their writes the outcome is the one of the
serial loop, and there is always an outcome. -/
theorem C31_schedule_independent {L : ℕ} (valid : List (Face L)) (invs : List Mat3) (p : ℝ) (src : List Vec3) (jobs : ℤ)
    (hj : 1 ≤ jobs) (out : Py (List (Fin L → ℝ))) :
    VbapOutcome valid invs p src jobs out ↔ out = vbapSerial valid invs p src := by
  have pool_eq : ∀ (ws : List (List (Write L))) (_ : (src.zipIdx.map fun t => jobWrites valid invs p t.2 t.1) = ws.map .ok)
      (t : List (Write L)), Interleaving ws t →
      vbapSerial valid invs p src = .ok ((List.range src.length).map fun i => runWrites t i) := by
    intro ws hw t ht
    have hlen : ws.length = src.length := by
      have := congrArg List.length hw; simpa using this.symm
    have hjob : ∀ (i : ℕ) (s : Vec3) (w : List (Write L)), src[i]? = some s → ws[i]? = some w → jobWrites valid invs p i s = .ok w := by
      intro i s w hs hwi
      have h1 : (src.zipIdx.map fun t => jobWrites valid invs p t.2 t.1)[i]? = (ws.map Except.ok)[i]? := by rw [hw]
      rw [List.getElem?_map, List.getElem?_map, List.getElem?_zipIdx, hs, hwi] at h1
      simpa using h1
    have hfil : ∀ i, t.filter (fun w => decide (w.row = i)) = ws.getD i [] := by
      refine interleaving_filter ht ?_
      intro k js hk w hwmem
      have hklt : k < src.length := by
        by_contra hlt
        rw [List.getElem?_eq_none (by omega)] at hk; cases hk
      exact (jobWrites_ok _ _ _ _ _ _ (hjob k _ js (List.getElem?_eq_getElem hklt) hk)).1 w hwmem
    unfold vbapSerial
    refine mapM_ext_len _ _ _ ?_
    apply List.ext_getElem?
    intro i
    rw [List.getElem?_map, List.getElem?_map, List.getElem?_map]
    by_cases hi : i < src.length
    · rw [List.getElem?_range hi, List.getElem?_eq_getElem hi]
      have hwi : ws[i]? = some ws[i] := List.getElem?_eq_getElem (by omega)
      have h1 := (jobWrites_ok _ _ _ _ _ _ (hjob i _ _ (List.getElem?_eq_getElem hi) hwi)).2
      simp only [Option.map_some]
      rw [h1, runWrites_row, hfil, List.getD_eq_getElem?_getD, hwi]
      rfl
    · rw [List.getElem?_eq_none (by omega), List.getElem?_eq_none (by simpa using hi)]; rfl
  constructor
  · intro h
    cases h with
    | serial _ => rfl
    | badPool _ hj' => omega
    | raised _ _ i s e hs he =>
      obtain ⟨rfl, hrow⟩ := jobWrites_err _ _ _ _ _ _ he
      exact (mapM_error (vbapRow valid invs p) _ src (fun x e' hx => vbapRow_err _ _ _ _ _ hx) ⟨s, List.mem_of_getElem? hs, hrow⟩).symm
    | pool _ _ ws hw t ht => exact (pool_eq ws hw t ht).symm
  · rintro rfl
    by_cases h : jobs = 1 ∨ src.length < 10
    · exact .serial h
    · by_cases herr : ∃ i s e, src[i]? = some s ∧ jobWrites valid invs p i s = .error e
      · obtain ⟨i, s, e, hs, he⟩ := herr
        obtain ⟨rfl, hrow⟩ := jobWrites_err _ _ _ _ _ _ he
        have : vbapSerial valid invs p src = .error .indexError :=
          mapM_error (vbapRow valid invs p) _ src (fun x e' hx => vbapRow_err _ _ _ _ _ hx) ⟨s, List.mem_of_getElem? hs, hrow⟩
        rw [this]
        exact .raised h hj i s _ hs he
      · have : ∀ t ∈ src.zipIdx, ∃ w, jobWrites valid invs p t.2 t.1 = .ok w := by
          intro t ht
          rw [List.mem_zipIdx_iff_getElem?] at ht
          cases hjw : jobWrites valid invs p t.2 t.1 with
          | ok w => exact ⟨w, rfl⟩
          | error e => exact absurd ⟨t.2, t.1, e, ht, hjw⟩ herr
        obtain ⟨ws, hws⟩ : ∃ ws : List (List (Write L)), (src.zipIdx.map fun t => jobWrites valid invs p t.2 t.1) = ws.map .ok := by
          generalize src.zipIdx = l at this
          induction l with
          | nil => exact ⟨[], rfl⟩
          | cons x l ih =>
            obtain ⟨w, hw⟩ := this x (by simp)
            obtain ⟨ws, hws⟩ := ih fun t ht => this t (by simp [ht])
            exact ⟨w :: ws, by rw [List.map_cons, List.map_cons, hw, hws]⟩
        obtain ⟨t, ht⟩ := exists_interleaving ws
        rw [pool_eq ws hws t ht]
        exact .pool h hj ws hws t ht

/-- C31: a non-positive number of processes is rejected as soon as the pool would be used. -/
theorem C31_bad_jobs {L : ℕ} (valid : List (Face L)) (invs : List Mat3) (p : ℝ) (src : List Vec3) (jobs : ℤ) (hj : jobs < 1)
    (hs : 10 ≤ src.length) (out : Py (List (Fin L → ℝ))) : VbapOutcome valid invs p src jobs out ↔ out = .error .valueError := by
  have h : ¬ (jobs = 1 ∨ src.length < 10) := by omega
  constructor
  · intro ho
    cases ho with
    | serial h' => exact absurd h' h
    | badPool _ _ => rfl
    | raised _ hj' => omega
    | pool _ hj' => omega
  · rintro rfl; exact .badPool h hj

/-! ### C34 -/

/-- C34: one row of VBIP gains, given the VBAP gains. -/
theorem C34_row {p : ℝ} (hp : 0 < p) (g : List ℝ) :
    (vbipRow p g).length = g.length ∧ (∀ x ∈ vbipRow p g, 0 ≤ x)
    ∧ (npNorm p (vbipRow p g).get = 1 ∨ ∀ x ∈ vbipRow p g, x = 0)
    ∧ (∀ i (h : i < (vbipRow p g).length) (h' : i < g.length), (vbipRow p g)[i] ≠ 0 ↔ 0 < g[i])
    ∧ ∃ c : ℝ, 0 < c ∧ ∀ i (h : i < (vbipRow p g).length) (h' : i < g.length), (vbipRow p g)[i] ^ 2 = c * max (g[i]) 0 := by
  set r := (g.map fun x => if x < 0 then 0 else x).map fun x => √x with hr
  have hrlen : r.length = g.length := by simp [hr]
  have hrval : ∀ i (h : i < r.length) (h' : i < g.length), r[i] = √(max (g[i]) 0) := by
    intro i h h'
    simp only [hr, List.getElem_map]
    congr 1
    split_ifs with hlt
    · rw [max_eq_right hlt.le]
    · rw [max_eq_left (not_lt.1 hlt)]
  have hrnn : ∀ x ∈ r, 0 ≤ x := by
    intro x hx
    rw [hr] at hx
    obtain ⟨y, _, rfl⟩ := List.mem_map.1 hx
    exact Real.sqrt_nonneg _
  have hpos : ∀ i (h : i < r.length) (h' : i < g.length), r[i] ≠ 0 ↔ 0 < g[i] := by
    intro i h h'
    rw [hrval i h h', Real.sqrt_ne_zero (le_max_right _ _)]
    constructor
    · intro hne
      by_contra hle
      exact hne (max_eq_right (not_lt.1 hle))
    · intro hlt; exact (lt_max_of_lt_left hlt).ne'
  have hsq : ∀ i (h : i < r.length) (h' : i < g.length), r[i] ^ 2 = max (g[i]) 0 := by
    intro i h h'
    rw [hrval i h h', Real.sq_sqrt (le_max_right _ _)]
  set n := npNorm p (fun i : Fin r.length => r[i]) with hn
  have hdef : vbipRow p g = if n > 0 then r.map (· / n) else r := rfl
  rw [hdef]
  by_cases hnpos : n > 0
  · rw [if_pos hnpos]
    refine ⟨by simp [hrlen], ?_, .inl ?_, ?_, 1 / n ^ 2, by positivity, ?_⟩
    · intro x hx
      obtain ⟨y, hy, rfl⟩ := List.mem_map.1 hx
      exact div_nonneg (hrnn y hy) hnpos.le
    · have h1 := npNorm_div hp (fun i : Fin r.length => r[i]) hnpos.ne'
      rw [← h1, npNorm, npNorm]
      congr 1
      have hl : (r.map (· / n)).length = r.length := by simp
      refine Fintype.sum_equiv (finCongr hl) _ _ fun i => ?_
      simp [hn]
    · intro i h h'
      rw [List.getElem_map, div_ne_zero_iff]
      constructor
      · intro hh; exact (hpos i (by simpa using h) h').1 hh.1
      · intro hh; exact ⟨(hpos i (by simpa using h) h').2 hh, hnpos.ne'⟩
    · intro i h h'
      rw [List.getElem_map, div_pow, hsq i (by simpa using h) h']; ring
  · rw [if_neg hnpos]
    have hn0 : n = 0 := le_antisymm (not_lt.1 hnpos) (npNorm_nonneg _ _)
    have hz := (npNorm_eq_zero hp _).1 hn0
    refine ⟨hrlen, hrnn, .inr ?_, hpos, 1, one_pos, ?_⟩
    · intro x hx
      obtain ⟨i, hi, rfl⟩ := List.getElem_of_mem hx
      exact congrFun hz ⟨i, hi⟩
    · intro i h h'
      rw [hsq i h h', one_mul]

/-- C34: `vbip` returns for every source the row `C34_row` describes, computed from the (2-norm) VBAP gains of the same call, and
raises exactly when `vbap` does. -/
theorem C34_vbip {L : ℕ} (lstsq : Mat3 → Mat3) (p : ℝ) (src : List Vec3) (validArg : Option (List (Face L))) (retain : Bool)
    (s : Setup L) :
    (∀ e, (vbip lstsq p src validArg retain s).1 = .error e ↔ (vbap lstsq 2 src validArg retain s).1 = .error e)
    ∧ ∀ rows, (vbap lstsq 2 src validArg retain s).1 = .ok rows →
      (vbip lstsq p src validArg retain s).1 = .ok (rows.map (vbipRow p)) := by
  unfold vbip
  simp only
  cases (vbap lstsq 2 src validArg retain s).1 with
  | error e => exact ⟨fun e' => Iff.rfl, fun rows h => by cases h⟩
  | ok rows =>
    refine ⟨fun e' => ⟨fun h => (by cases h), fun h => by cases h⟩, fun rows' h => ?_⟩
    cases h; rfl

example : (vbipRow 2 [4, -1, 9]).length = 3 ∧ ((vbipRow 2 [4, -1, 9])[1]? = some 0) := by
  have h := (C34_row (p := 2) (by norm_num) [4, -1, 9])
  refine ⟨h.1, ?_⟩
  have hl : 1 < (vbipRow 2 [4, -1, 9]).length := by rw [h.1]; norm_num
  rw [List.getElem?_eq_getElem hl]
  congr 1
  by_contra hne
  have := (h.2.2.2.1 1 hl (by norm_num)).1 hne
  norm_num at this

end Verif.Props
