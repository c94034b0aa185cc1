import Verif.Props.Vbap
import Verif.Proofs.Octahedron

/-!
C32 (VBAP and earlier calls), C33 (the characteristic order and earlier calls); examples on the octahedron for C29-C31.
-/

namespace Verif.Props
open Real Verif.Sph Verif.Utils Verif.Decoder

/-! ### The octahedron meets the hypotheses of C29-C31 -/

theorem oct_cache (lstsq : Mat3 → Mat3) : CacheOk lstsq Oct.hull := by intro b hb; cases hb

example : ∃ h : Hull 6, mkHull Oct.qhull Oct.pts 0 = .ok h ∧ (∀ f ∈ h.valid, Function.Injective f) ∧ h.valid ≠ [] ∧
    (∀ f ∈ h.valid, LinearIndependent ℝ fun i => h.points (f i)) ∧ (∀ l, h.d l = norm3 (h.points l)) :=
  ⟨Oct.hull, Oct.mkHull_eq, Oct.inj, by simp [Oct.hull, Oct.faces], Oct.li, fun l => (Oct.norm_pts l).symm⟩

/-- C29/C30 on the octahedron: the source `(1, 2, 3)` gets a non-zero row. -/
example : ∃ lstsq : Mat3 → Mat3, LstsqSpec lstsq ∧ ∃ row, (vbapHull lstsq 2 [![1, 2, 3]] none Oct.hull).1 = .ok [row] ∧ row ≠ 0 := by
  obtain ⟨lstsq, hl⟩ := exists_lstsq3
  refine ⟨lstsq, hl, C30_cone lstsq hl (by norm_num) Oct.hull (oct_cache lstsq) Oct.inj Oct.li (fun l => (Oct.norm_pts l).symm)
    ![1, 2, 3] (fun h => by simpa using congrFun h 0) ![0, 2, 4] (by simp [Oct.hull, Oct.faces]) ![1, 2, 3] ?_ ?_⟩
  · intro i; fin_cases i <;> norm_num
  · funext c; fin_cases c <;> simp [Oct.hull, Oct.pts, Fin.sum_univ_three]

/-! ### C32 -/

/-- A call on a setup. -/
inductive Call (L : ℕ)
  | vbap (p : ℝ) (src : List Vec3) (validArg : Option (List (Face L)))
  | pop (normal aperture opening : Option ℝ) (blacklist : Option (List ℕ))

/-- The effect of a call on the setup. -/
noncomputable def Call.run {L : ℕ} (lstsq : Mat3 → Mat3) (h : Hull L) : Call L → Hull L
  | .vbap p src v => (vbapHull lstsq p src v h).2
  | .pop n a o b => popTriangles h n a o b

/-- The same setup with the stored inverses discarded. -/
def forget {L : ℕ} (h : Hull L) : Hull L := { h with invBase := none }

theorem pop_inv {L : ℕ} (h : Hull L) (n a o : Option ℝ) (b : Option (List ℕ)) :
    (popTriangles h n a o b).invBase = h.invBase ∧ (popTriangles h n a o b).points = h.points := by
  unfold popTriangles popBlacklist popOpening popAperture popNormal applyBlacklist
  cases n <;> cases a <;> cases o <;> cases b <;> exact ⟨rfl, rfl⟩

theorem oct_blacklist : (Oct.faces.filter fun f => ! [0, 2, 4].all fun e => decide (∃ i, (f i : ℕ) = e)) = Oct.faces.tail := by decide

/-- C32, negation: `vbap`, then `pop_triangles(blacklist=[0, 2, 4])`, then `vbap` again: the source `(1, 1, 1)` is then played by
the loudspeakers of *another* simplex, and the result differs from that of a fresh setup with the same valid simplices. -/
theorem C32_stale : ∃ (qhull : (L : ℕ) → (Fin L → Vec3) → Py (List (Face L))) (h : Hull 6), mkHull qhull Oct.pts 0 = .ok h ∧
    ∀ lstsq, LstsqSpec lstsq → ∀ calls : List (Call 6),
      calls = [.vbap 2 [![0, 0, 1]] none, .pop none none none (some [0, 2, 4])] →
      (vbapHull lstsq 2 [![1, 1, 1]] none (calls.foldl (Call.run lstsq) h)).1
        ≠ (vbapHull lstsq 2 [![1, 1, 1]] none (forget (calls.foldl (Call.run lstsq) h))).1 := by
  refine ⟨Oct.qhull, Oct.hull, Oct.mkHull_eq, ?_⟩
  rintro lstsq hl _ rfl
  set h' := [Call.vbap 2 [![0, 0, 1]] none, .pop none none none (some [0, 2, 4])].foldl (Call.run lstsq) Oct.hull with hh'
  have hvalid : h'.valid = Oct.faces.tail := by
    exact oct_blacklist
  have hpts : h'.points = Oct.pts := rfl
  have hd : h'.d = fun _ => 1 := rfl
  have ha : h'.a = 1 := rfl
  have hinv : h'.invBase = some (invertTriplets lstsq Oct.faces Oct.pts) := rfl
  have hmem : ∀ f ∈ h'.valid, f ∈ Oct.faces := by rw [hvalid]; exact fun f hf => List.mem_of_mem_tail hf
  -- the stale row
  have hproj : (lstsq (baseMat Oct.pts ![0, 2, 4])).transpose.mulVec ![1, 1, 1] = ![1, 1, 1] := by
    rw [proj_coords hl Oct.pts ![0, 2, 4] (Oct.li _ (by simp [Oct.faces]))]
    funext c; fin_cases c <;> simp [Oct.pts, Fin.sum_univ_three]
  have hn : npNorm 2 (![1, 1, 1] : Vec3) ≠ 0 := by
    rw [Ne, npNorm_eq_zero (by norm_num)]
    intro h0; simpa using congrFun h0 0
  set n := npNorm 2 (![1, 1, 1] : Vec3)
  have hnpos : 0 < n := lt_of_le_of_ne (npNorm_nonneg _ _) (Ne.symm hn)
  have htry : tryFace 2 (lstsq (baseMat Oct.pts ![0, 2, 4])).transpose ![1, 1, 1] = some fun i => (![1, 1, 1] : Vec3) i / n := by
    unfold tryFace
    simp only [hproj]
    rw [if_neg hn, if_pos]
    intro i
    have : (![1, 1, 1] : Vec3) i = 1 := by fin_cases i <;> rfl
    rw [this]
    have : 0 < 1 / n := by positivity
    refine lt_trans ?_ this; norm_num
  have hstale : (vbapHull lstsq 2 [![1, 1, 1]] none h').1 = .ok [writeRow [(0, 1 / n), (2, 1 / n), (5, 1 / n)]] := by
    unfold vbapHull vbapSerial vbase
    simp only [hinv, Option.getD_none, List.mapM_cons, List.mapM_nil, hvalid, hd, ha]
    have : vbapRow Oct.faces.tail (invertTriplets lstsq Oct.faces Oct.pts) 2 ![1, 1, 1]
        = .ok (writeRow [(0, 1 / n), (2, 1 / n), (5, 1 / n)]) := by
      unfold vbapRow faceWrites invertTriplets
      show Except.bind (match (match tryFace 2 (lstsq (baseMat Oct.pts ![0, 2, 4])).transpose ![1, 1, 1] with
        | some g => some (0, g) | none => _) with | none => _ | some (i, g) => _) _ = _
      rw [htry]
      rfl
    rw [this]
    show Except.ok _ = Except.ok _
    simp
  rw [hstale]
  intro heq
  obtain ⟨rows, h1, _, h3⟩ := C29_vbap lstsq hl (p := 2) (by norm_num) (forget h') (by intro b hb; cases hb)
    (fun f hf => Oct.inj f (hmem f hf)) [![1, 1, 1]]
  rw [h1] at heq
  cases heq
  obtain ⟨g, hg, hcase⟩ := h3 0 _ _ rfl rfl
  have hgval : ∀ l, g l = writeRow [(0, 1 / n), (2, 1 / n), (5, 1 / n)] l := by
    intro l
    have := congrFun hg l
    rw [this]
    show _ = (1 : ℝ) ^ (1 : ℝ) * g l
    rw [Real.one_rpow, one_mul]
  have g0 : g 0 = 1 / n := by rw [hgval]; simp [writeRow, Function.update]
  have g4 : g 4 = 0 := by rw [hgval]; simp [writeRow, Function.update]
  have g5 : g 5 = 1 / n := by rw [hgval]; simp [writeRow, Function.update]
  have hpos : 0 < 1 / n := by positivity
  rcases hcase with rfl | ⟨f, hf, hr⟩
  · rw [Pi.zero_apply] at g0; linarith
  · obtain ⟨c, hc, hsum⟩ := hr.direction (Oct.li f (hmem f hf))
    have := congrFun hsum 2
    simp only [Fin.sum_univ_six, Pi.add_apply, Pi.smul_apply, smul_eq_mul, g4, g5] at this
    change g 0 * Oct.pts 0 2 + g 1 * Oct.pts 1 2 + g 2 * Oct.pts 2 2 + g 3 * Oct.pts 3 2 + 0 * Oct.pts 4 2 + 1 / n * Oct.pts 5 2 = _ at this
    simp [Oct.pts] at this
    have : 0 < n⁻¹ := by positivity
    linarith

/-- C32, part that holds: whatever the history, the inverses used are those of the simplices of the *first* `vbap` call (its
argument, or the valid simplices at that time). Missing: later changes of the valid simplices are ignored (`C32_stale`). -/
theorem C32_first_call_partial {L : ℕ} (lstsq : Mat3 → Mat3) (h : Hull L) (h0 : h.invBase = none)
    (pops : List (Call L)) (hpops : ∀ c ∈ pops, ∃ n a o b, c = .pop n a o b) (p : ℝ) (src : List Vec3) (v : Option (List (Face L)))
    (rest : List (Call L)) :
    ((pops ++ .vbap p src v :: rest).foldl (Call.run lstsq) h).invBase
      = some (invertTriplets lstsq (v.getD (pops.foldl (Call.run lstsq) h).valid) h.points) := by
  have keep : ∀ (l : List (Call L)) (h : Hull L) (b : List Mat3), h.invBase = some b → (l.foldl (Call.run lstsq) h).invBase = some b := by
    intro l
    induction l with
    | nil => intro h b hb; exact hb
    | cons c l ih =>
      intro h b hb
      refine ih _ b ?_
      cases c with
      | vbap p src v =>
        show some (vbase lstsq h _) = some b
        unfold vbase; rw [hb]
      | pop n a o bl => exact (pop_inv h n a o bl).1.trans hb
  have hpre : ∀ (l : List (Call L)) (h : Hull L), (∀ c ∈ l, ∃ n a o b, c = .pop n a o b) →
      (l.foldl (Call.run lstsq) h).invBase = h.invBase ∧ (l.foldl (Call.run lstsq) h).points = h.points := by
    intro l
    induction l with
    | nil => intro h _; exact ⟨rfl, rfl⟩
    | cons c l ih =>
      intro h hc
      obtain ⟨n, a, o, b, rfl⟩ := hc c (by simp)
      have := ih (Call.run lstsq h (.pop n a o b)) fun c hcl => hc c (by simp [hcl])
      exact ⟨this.1.trans (pop_inv h n a o b).1, this.2.trans (pop_inv h n a o b).2⟩
  rw [List.foldl_append, List.foldl_cons]
  obtain ⟨hi, hp⟩ := hpre pops h hpops
  apply keep
  show some (vbase lstsq _ _) = _
  unfold vbase
  rw [hi, h0, hp]

/-- C32, part that holds: after any number of `pop_triangles` calls followed by any number of `vbap` calls (with the default
simplices), `vbap` gives what a fresh setup with those valid simplices gives. Missing: `pop_triangles` after `vbap`, and `vbap` calls
with a `valid_simplices` argument. -/
theorem C32_vbap_partial {L : ℕ} (lstsq : Mat3 → Mat3) (h : Hull L) (h0 : h.invBase = none)
    (pops : List (Call L)) (hpops : ∀ c ∈ pops, ∃ n a o b, c = .pop n a o b)
    (vbaps : List (Call L)) (hv : ∀ c ∈ vbaps, ∃ p src, c = .vbap p src none) (p : ℝ) (src : List Vec3) :
    (vbapHull lstsq p src none ((pops ++ vbaps).foldl (Call.run lstsq) h)).1
      = (vbapHull lstsq p src none (pops.foldl (Call.run lstsq) h)).1 := by
  have hpre : ∀ (l : List (Call L)) (h : Hull L), (∀ c ∈ l, ∃ n a o b, c = .pop n a o b) →
      (l.foldl (Call.run lstsq) h).invBase = h.invBase := by
    intro l
    induction l with
    | nil => intro h _; rfl
    | cons c l ih =>
      intro h hc
      obtain ⟨n, a, o, b, rfl⟩ := hc c (by simp)
      exact (ih (Call.run lstsq h (.pop n a o b)) fun c hcl => hc c (by simp [hcl])).trans (pop_inv h n a o b).1
  rw [List.foldl_append]
  have hc0 : (pops.foldl (Call.run lstsq) h).invBase = none := (hpre pops h hpops).trans h0
  set k := pops.foldl (Call.run lstsq) h
  have inv : ∀ (l : List (Call L)), (∀ c ∈ l, ∃ p src, c = .vbap p src none) → ∀ k' : Hull L,
      (k' = k ∨ k' = { k with invBase := some (invertTriplets lstsq k.valid k.points) }) →
      (l.foldl (Call.run lstsq) k' = k ∨ l.foldl (Call.run lstsq) k' = { k with invBase := some (invertTriplets lstsq k.valid k.points) }) := by
    intro l
    induction l with
    | nil => intro _ k' hk'; exact hk'
    | cons c l ih =>
      intro hc k' hk'
      obtain ⟨p, src, rfl⟩ := hc c (by simp)
      refine ih (fun c hcl => hc c (by simp [hcl])) _ (.inr ?_)
      show { k' with invBase := some (vbase lstsq k' k'.valid) } = _
      rcases hk' with rfl | rfl
      · unfold vbase; rw [hc0]
      · rfl
  rcases inv vbaps hv k (.inl rfl) with h1 | h1
  · rw [h1]
  · rw [h1]
    unfold vbapHull vbase
    simp only [hc0]
    rfl

example : ∃ pops : List (Call 6), (∀ c ∈ pops, ∃ n a o b, c = .pop n a o b) ∧
    (pops.foldl (Call.run (fun V => V)) Oct.hull).valid = Oct.faces.tail :=
  ⟨[.pop none none none (some [0, 2, 4])], by simp, oct_blacklist⟩

/-! ### C33 -/

/-- C33: computing the characteristic order leaves the setup as it is: `get_characteristic_order` returns a value and the model of
the method has no other effect; a stored order is returned as it is. -/
theorem C33_stored {L : ℕ} (lstsq : Mat3 → Mat3) (h : Hull L) (n : ℕ) (hn : h.charOrder = some n) :
    getCharacteristicOrder lstsq h = .ok n := by
  unfold getCharacteristicOrder; rw [hn]

/-- The sum of the corners of a face of the octahedron. -/
theorem oct_diag : ∀ f ∈ Oct.faces, ∀ x, (∑ i, Oct.pts (f i) x) ^ 2 = 1 := by
  intro f hf x
  simp only [Oct.faces, List.mem_cons, List.not_mem_nil, or_false] at hf
  rcases hf with rfl | rfl | rfl | rfl | rfl | rfl | rfl | rfl <;> fin_cases x <;> simp [Oct.pts, Fin.sum_univ_three]

theorem oct_centroid (f : Face 6) (hf : f ∈ Oct.faces) :
    ∃ c : ℝ, 0 < c ∧ projectOnSphere (centroid Oct.pts f) = c • fun x => ∑ i, Oct.pts (f i) x := by
  have hne : centroid Oct.pts f ≠ 0 := by
    intro h
    have h0 := congrFun h 0
    have h1 := oct_diag f hf 0
    unfold centroid at h0
    have : ∑ i, Oct.pts (f i) 0 = 0 := by
      rw [Pi.zero_apply, div_eq_zero_iff] at h0
      rcases h0 with h0 | h0
      · exact h0
      · norm_num at h0
    rw [this] at h1; norm_num at h1
  have hpos : 0 < norm3 (centroid Oct.pts f) := by
    unfold norm3
    refine Real.sqrt_pos.2 (lt_of_le_of_ne (Finset.sum_nonneg fun c _ => mul_self_nonneg _) fun h0 => hne ?_)
    exact dotProduct_self_eq_zero.1 h0.symm
  refine ⟨1 / norm3 (centroid Oct.pts f) * (1 / 3), by positivity, ?_⟩
  rw [Oct.projectOnSphere_eq _ hne]
  funext x
  simp only [Pi.smul_apply, smul_eq_mul, centroid]
  ring

theorem oct_row (lstsq : Mat3 → Mat3) (hl : LstsqSpec lstsq) (f : Face 6) (hf : f ∈ Oct.faces) :
    ∃ g, vbapRow Oct.faces (invertTriplets lstsq Oct.faces Oct.pts) 2 (projectOnSphere (centroid Oct.pts f)) = .ok g
      ∧ (rE Oct.pts fun l => 1 * g l).2 = √(1 / 3) := by
  obtain ⟨c, hc, hcen⟩ := oct_centroid f hf
  set s : Vec3 := fun x => ∑ i, Oct.pts (f i) x with hs
  have hs' : s = ∑ i, (1 : ℝ) • Oct.pts (f i) := by funext x; simp [hs]
  have hrow : ∀ s', vbapRow Oct.faces (invertTriplets lstsq Oct.faces Oct.pts) 2 (c • s') =
      vbapRow Oct.faces (invertTriplets lstsq Oct.faces Oct.pts) 2 s' := by
    intro s'
    unfold vbapRow faceWrites
    rw [searchFaces_scale (by norm_num) s' hc]
  rw [hcen, hrow]
  rcases row_cases lstsq (p := 2) (by norm_num) Oct.pts Oct.faces Oct.inj s with ⟨_, h2⟩ | ⟨k, f', g, hf', h1, h2, _, h4, _, _, h7⟩
  · exfalso
    have : Inside 2 Oct.pts f s := by
      refine ⟨fun _ => 1, hs'.symm, ?_, ?_⟩
      · rw [Ne, npNorm_eq_zero (by norm_num)]
        intro h0; simpa using congrFun h0 0
      · intro i
        have : 0 ≤ 1 / npNorm 2 (fun _ : Fin 3 => (1 : ℝ)) := div_nonneg (by norm_num) (npNorm_nonneg _ _)
        linarith
    rw [inside_iff hl 2 Oct.pts f (Oct.li f hf), h2 f hf] at this
    simp at this
  · refine ⟨g, h1, ?_⟩
    simp only [one_mul]
    have hfm := List.mem_of_getElem? hf'
    set q := (lstsq (baseMat Oct.pts f')).transpose.mulVec s
    have hn : npNorm 2 q ≠ 0 := ((tryFace_iff 2 _ s).1 h2).1
    have hn' : 0 < npNorm 2 q := lt_of_le_of_ne (npNorm_nonneg 2 q) (Ne.symm hn)
    refine Oct.mag_diag g f' hfm h4 (1 / npNorm 2 q) (by positivity) s (oct_diag f hf) ?_
    rw [sum_face f' (Oct.inj f' hfm) (fun l => g l • Oct.pts l)]
    · have := (proj_coords hl Oct.pts f' (Oct.li f' hfm) s q).1 rfl
      rw [← this, Finset.smul_sum]
      refine Finset.sum_congr rfl fun i _ => ?_
      rw [h7 i, smul_smul, one_div, div_eq_inv_mul]
    · intro l hl'
      by_cases hg : g l = 0
      · rw [hg, zero_smul]
      · obtain ⟨i, hi⟩ := h4 l hg
        exact absurd hi (hl' i)

theorem oct_order (lstsq : Mat3 → Mat3) (hl : LstsqSpec lstsq) (valid : List (Face 6)) :
    characteristicAmbisonicOrder lstsq { Oct.hull with valid := valid } = .ok 2 := by
  unfold characteristicAmbisonicOrder
  have hp : (fun l => projectOnSphere (({ Oct.hull with valid := valid } : Hull 6).points l)) = Oct.pts := Oct.project_pts
  simp only [hp]
  have hsrc : (({ Oct.hull with valid := valid } : Hull 6).centroids).map projectOnSphere
      = Oct.faces.map fun f => projectOnSphere (centroid Oct.pts f) := by
    show (Oct.faces.map _).map _ = _
    rw [List.map_map]; rfl
  rw [hsrc]
  have hrows : ∀ fs : List (Face 6), (∀ f ∈ fs, f ∈ Oct.faces) → ∃ rows,
      vbapSerial Oct.faces (invertTriplets lstsq Oct.faces Oct.pts) 2 (fs.map fun f => projectOnSphere (centroid Oct.pts f)) = .ok rows
      ∧ rows.map (fun g => (rE Oct.pts fun l => 1 * g l).2) = List.replicate fs.length √(1 / 3) := by
    intro fs
    induction fs with
    | nil => intro _; exact ⟨[], rfl, rfl⟩
    | cons f fs ih =>
      intro hfs
      obtain ⟨rows, h1, h2⟩ := ih fun f hf => hfs f (by simp [hf])
      obtain ⟨g, h3, h4⟩ := oct_row lstsq hl f (hfs f (by simp))
      refine ⟨g :: rows, ?_, ?_⟩
      · unfold vbapSerial at h1 ⊢
        rw [List.map_cons, List.mapM_cons, h3, h1]; rfl
      · rw [List.map_cons, h2, h4]; rfl
  obtain ⟨rows, h1, h2⟩ := hrows Oct.faces fun f hf => hf
  have hv : ∀ k : Hull 6, k.invBase = none → k.points = Oct.pts → k.d = (fun _ => 1) → k.a = 1 →
      (vbapHull lstsq 2 (Oct.faces.map fun f => projectOnSphere (centroid Oct.pts f)) (some Oct.faces) k).1
      = .ok (rows.map fun r l => 1 * r l) := by
    intro k hk1 hk2 hk3 hk4
    unfold vbapHull vbase
    simp only [hk1, hk2, hk3, hk4, Option.getD_some, h1, Real.one_rpow]
    rfl
  have hv' := hv { Oct.hull with valid := valid, points := Oct.pts } rfl rfl rfl rfl
  show (vbapHull lstsq 2 (Oct.faces.map fun f => projectOnSphere (centroid Oct.pts f)) (some Oct.faces)
    { Oct.hull with valid := valid, points := Oct.pts }).1.bind _ = _
  rw [hv']
  show orderFromMags _ = _
  rw [List.map_map]
  have : ((fun g => (rE Oct.pts g).2) ∘ fun (r : Fin 6 → ℝ) l => 1 * r l) = fun g => (rE Oct.pts fun l => 1 * g l).2 := rfl
  rw [this, h2]
  exact Oct.order_diag _ (by decide)

/-- The average spread `2*arccos(|rE|)`, in degrees, over the sources in the directions of the face centroids of the layout projected on
the sphere. -/
noncomputable def meanSpread {L : ℕ} (h : Hull L) (gains : List (Fin L → ℝ)) : ℝ :=
  (gains.map fun g => 2 * arccos (rE (fun l => projectOnSphere (h.points l)) g).2 * (180 / π)).sum / gains.length

/-- **C33** The computed order is `⌈2*137.9/spread - 1.51⌉` of the average spread of VBAP on the projected layout, and a layout for which that
is below one (or the spread is zero) is rejected with `ValueError`; an order computed from the layout is never zero. -/
theorem C33_value {L : ℕ} (lstsq : Mat3 → Mat3) (h : Hull L) (h0 : h.charOrder = none) (gains : List (Fin L → ℝ))
    (hg : (vbapHull lstsq 2 (h.centroids.map projectOnSphere) (some h.encloses) { h with points := fun l => projectOnSphere (h.points l) }).1
      = .ok gains) :
    (∀ n : ℕ, getCharacteristicOrder lstsq h = .ok n ↔
      1 ≤ n ∧ meanSpread h gains ≠ 0 ∧ (n : ℝ) - 1 < 2 * 137.9 / meanSpread h gains - 1.51 ∧ 2 * 137.9 / meanSpread h gains - 1.51 ≤ n) ∧
    ((meanSpread h gains = 0 ∨ 2 * 137.9 / meanSpread h gains - 1.51 ≤ 0) ↔ getCharacteristicOrder lstsq h = .error .valueError) := by
  have hchar : characteristicAmbisonicOrder lstsq h =
      if meanSpread h gains = 0 then .error .valueError else .ok ⌈2 * 137.9 / meanSpread h gains - 1.51⌉ := by
    change ((vbapHull lstsq 2 (h.centroids.map projectOnSphere) (some h.encloses)
      { h with points := fun l => projectOnSphere (h.points l) }).1).bind _ = _
    rw [hg]
    change orderFromMags _ = _
    unfold orderFromMags meanSpread
    simp only [List.map_map, List.length_map]
    rfl
  have hget : getCharacteristicOrder lstsq h = (characteristicAmbisonicOrder lstsq h).bind
      fun n => if n < 1 then .error .valueError else .ok n.toNat := by
    unfold getCharacteristicOrder; rw [h0]; rfl
  rw [hget, hchar]
  by_cases hm : meanSpread h gains = 0
  · rw [if_pos hm]
    refine ⟨fun n => ⟨fun h => (by cases h), fun h => absurd hm h.2.1⟩, fun _ => rfl, fun _ => .inl hm⟩
  rw [if_neg hm]
  set q := 2 * 137.9 / meanSpread h gains - 1.51 with hq
  change (∀ n : ℕ, (if ⌈q⌉ < 1 then (.error .valueError : Py ℕ) else .ok ⌈q⌉.toNat) = .ok n ↔ _) ∧
    (_ ↔ (if ⌈q⌉ < 1 then (.error .valueError : Py ℕ) else .ok ⌈q⌉.toNat) = .error .valueError)
  have hc : ⌈q⌉ < 1 ↔ q ≤ 0 := by rw [Int.lt_iff_add_one_le, show ⌈q⌉ + 1 ≤ 1 ↔ ⌈q⌉ ≤ 0 by omega, Int.ceil_le]; simp
  constructor
  · intro n
    split
    · rename_i hlt
      refine ⟨fun h => (by cases h), fun ⟨h1, _, h3, _⟩ => ?_⟩
      have := hc.1 hlt
      have : (1 : ℝ) ≤ n := by exact_mod_cast h1
      linarith
    · rename_i hge
      have hge' : 1 ≤ ⌈q⌉ := by omega
      constructor
      · intro h
        have hn : ⌈q⌉.toNat = n := by injection h
        have hn' : ⌈q⌉ = (n : ℤ) := by omega
        refine ⟨by omega, hm, ?_⟩
        have := Int.ceil_eq_iff.1 hn'
        simpa using this
      · rintro ⟨_, _, h3, h4⟩
        have hn' : ⌈q⌉ = (n : ℤ) := Int.ceil_eq_iff.2 (by simpa using ⟨h3, h4⟩)
        rw [hn']; simp
  · rw [← hc]
    constructor
    · rintro (h | h)
      · exact absurd h hm
      · rw [if_pos h]
    · intro h
      by_contra hcon
      rw [if_neg fun h' => hcon (.inr h')] at h
      cases h

/-- C33 on the octahedron: the spread is such that the order is 2. -/
example (lstsq : Mat3 → Mat3) (hl : LstsqSpec lstsq) : ∃ gains, meanSpread Oct.hull gains ≠ 0 ∧
    1 < 2 * 137.9 / meanSpread Oct.hull gains - 1.51 ∧ 2 * 137.9 / meanSpread Oct.hull gains - 1.51 ≤ 2 := by
  have h2 : getCharacteristicOrder lstsq Oct.hull = .ok 2 := by
    change (characteristicAmbisonicOrder lstsq { Oct.hull with valid := Oct.hull.valid }).bind _ = _
    rw [oct_order lstsq hl Oct.hull.valid]; rfl
  cases hg : (vbapHull lstsq 2 (Oct.hull.centroids.map projectOnSphere) (some Oct.hull.encloses)
      { Oct.hull with points := fun l => projectOnSphere (Oct.hull.points l) }).1 with
  | error e =>
    have : characteristicAmbisonicOrder lstsq Oct.hull = .error e := by
      change ((vbapHull lstsq 2 (Oct.hull.centroids.map projectOnSphere) (some Oct.hull.encloses)
        { Oct.hull with points := fun l => projectOnSphere (Oct.hull.points l) }).1).bind _ = _
      rw [hg]; rfl
    have h3 := oct_order lstsq hl Oct.hull.valid
    change characteristicAmbisonicOrder lstsq Oct.hull = _ at h3
    rw [this] at h3; cases h3
  | ok gains =>
    obtain ⟨_, h3, h4, h5⟩ := ((C33_value lstsq Oct.hull rfl gains hg).1 2).1 h2
    exact ⟨gains, h3, by norm_num at h4 ⊢; exact h4, by simpa using h5⟩

/-- C33, negation: on the octahedron whose simplices have all been removed, the order is 2 before and 1 after a `vbap` call. -/
theorem C33_stale (lstsq : Mat3 → Mat3) (hl : LstsqSpec lstsq) :
    ∃ h h' : Hull 6, mkHull Oct.qhull Oct.pts 0 = .ok h ∧ h' = popTriangles h none none none (some []) ∧
      getCharacteristicOrder lstsq h' = .ok 2 ∧
      getCharacteristicOrder lstsq (vbapHull lstsq 2 [![0, 0, 1]] none h').2 = .ok 1 := by
  refine ⟨Oct.hull, { Oct.hull with valid := [] }, Oct.mkHull_eq, ?_, ?_, ?_⟩
  · rfl
  · unfold getCharacteristicOrder
    show (characteristicAmbisonicOrder lstsq { Oct.hull with valid := [] }).bind _ = _
    rw [oct_order lstsq hl]; rfl
  · unfold getCharacteristicOrder
    have hk : (vbapHull lstsq 2 [![0, 0, 1]] none { Oct.hull with valid := [] }).2 = { Oct.hull with valid := [], invBase := some [] } := rfl
    rw [hk]
    have h1 : characteristicAmbisonicOrder lstsq { Oct.hull with valid := [], invBase := some [] } = .ok 1 := by
      unfold characteristicAmbisonicOrder vbapHull
      have hz : ∀ src : List Vec3, vbapSerial Oct.faces [] 2 src = .ok (List.replicate src.length 0) := by
        intro src
        unfold vbapSerial
        induction src with
        | nil => rfl
        | cons s src ih => rw [List.mapM_cons, ih]; rfl
      have hz' := hz ((calculateCentroids Oct.pts Oct.faces).map projectOnSphere)
      show (Except.map _ (vbapSerial Oct.faces [] 2 ((calculateCentroids Oct.pts Oct.faces).map projectOnSphere))).bind _ = _
      rw [hz']
      show orderFromMags _ = _
      rw [List.map_replicate, List.map_replicate]
      have : (rE (fun l => projectOnSphere (Oct.pts l)) fun l => (1 : ℝ) ^ (1 : ℝ) * (0 : Fin 6 → ℝ) l).2 = 0 := by
        simp only [Pi.zero_apply, mul_zero, C26_zero]
      show orderFromMags (List.replicate _ (rE (fun l => projectOnSphere (Oct.pts l)) fun l => (1 : ℝ) ^ (1 : ℝ) * (0 : Fin 6 → ℝ) l).2) = _
      rw [this]
      exact Oct.order_zero _ (by simp [calculateCentroids, Oct.faces])
    show (characteristicAmbisonicOrder lstsq { Oct.hull with valid := [], invBase := some [] }).bind _ = _
    rw [h1]; rfl

/-- C33, part that holds: without stored inverses the order depends on the layout only (not on the valid simplices, which
`pop_triangles` may have changed). Missing: setups on which `vbap` has been called (`C33_stale`). -/
theorem C33_layout_partial {L : ℕ} (lstsq : Mat3 → Mat3) (h : Hull L) (h0 : h.invBase = none) (pops : List (Call L))
    (hpops : ∀ c ∈ pops, ∃ n a o b, c = .pop n a o b) :
    getCharacteristicOrder lstsq (pops.foldl (Call.run lstsq) h) = getCharacteristicOrder lstsq h := by
  have hpre : ∀ (l : List (Call L)) (h : Hull L), (∀ c ∈ l, ∃ n a o b, c = .pop n a o b) →
      ∃ v, l.foldl (Call.run lstsq) h = { h with valid := v } := by
    intro l
    induction l with
    | nil => intro h _; exact ⟨h.valid, rfl⟩
    | cons c l ih =>
      intro h hc
      obtain ⟨n, a, o, b, rfl⟩ := hc c (by simp)
      obtain ⟨v, hv⟩ := ih (Call.run lstsq h (.pop n a o b)) fun c hcl => hc c (by simp [hcl])
      refine ⟨v, hv.trans ?_⟩
      unfold Call.run popTriangles popBlacklist popOpening popAperture popNormal applyBlacklist
      cases n <;> cases a <;> cases o <;> cases b <;> rfl
  obtain ⟨v, hv⟩ := hpre pops h hpops
  rw [hv]
  unfold getCharacteristicOrder characteristicAmbisonicOrder vbapHull vbase
  simp only [h0]
  rfl

/-- C33, part that holds: for a layout on the unit sphere whose valid simplices are those enclosing the listener (as in a new setup),
earlier `vbap` calls with the default simplices do not change the order. -/
theorem C33_unit_partial {L : ℕ} (lstsq : Mat3 → Mat3) (h : Hull L) (hc : CacheOk lstsq h) (hv : h.valid = h.encloses)
    (hp : ∀ l, projectOnSphere (h.points l) = h.points l) :
    getCharacteristicOrder lstsq h = getCharacteristicOrder lstsq (forget h) := by
  have hp' : (fun l => projectOnSphere (h.points l)) = h.points := funext hp
  unfold getCharacteristicOrder characteristicAmbisonicOrder vbapHull forget
  simp only [hp', Option.getD_some]
  have : vbase lstsq { h with points := h.points } h.encloses = invertTriplets lstsq h.encloses h.points := by
    rw [← hv]; exact vbase_ok hc
  have h2 : vbase lstsq h h.encloses = invertTriplets lstsq h.encloses h.points := this
  simp only [h2]
  rfl

example : ∃ h : Hull 6, CacheOk (fun V => V) h ∧ h.invBase ≠ none ∧ h.valid = h.encloses ∧ h.valid ≠ [] ∧
    ∀ l, projectOnSphere (h.points l) = h.points l :=
  ⟨{ Oct.hull with invBase := some (invertTriplets (fun V => V) Oct.faces Oct.pts) }, fun b hb => (Option.some.inj hb).symm,
    by simp, rfl, by simp [Oct.hull, Oct.faces], fun l => congrFun Oct.project_pts l⟩

/-- `C29_vbap`, `C30_first`: sources on the octahedron. -/
example : ∃ lstsq : Mat3 → Mat3, LstsqSpec lstsq ∧ (∃ rows, (vbapHull lstsq 2 [![1, 0, 0], ![1, 1, -1]] none Oct.hull).1 = .ok rows ∧ rows.length = 2) ∧
    ∃ row, (vbapHull lstsq 2 [![1, 1, -1]] none Oct.hull).1 = .ok [row] := by
  obtain ⟨lstsq, hl⟩ := exists_lstsq3
  obtain ⟨rows, h1, h2, -⟩ := C29_vbap lstsq hl (p := 2) (by norm_num) Oct.hull (oct_cache lstsq) Oct.inj [![1, 0, 0], ![1, 1, -1]]
  obtain ⟨row, h3, -⟩ := C30_first lstsq hl (p := 2) (by norm_num) Oct.hull (oct_cache lstsq) Oct.inj Oct.li (fun l => (Oct.norm_pts l).symm) ![1, 1, -1]
  exact ⟨lstsq, hl, ⟨rows, h1, h2⟩, row, h3⟩

/-- `C30_scale`: sources at other distances. -/
example (lstsq : Mat3 → Mat3) : vbapHull lstsq 2 [(3 : ℝ) • ![1, 0, 0], (1 / 2 : ℝ) • ![1, 1, -1]] none Oct.hull
    = vbapHull lstsq 2 [![1, 0, 0], ![1, 1, -1]] none Oct.hull :=
  C30_scale lstsq (p := 2) (by norm_num) Oct.hull none [(3, ![1, 0, 0]), (1 / 2, ![1, 1, -1])] (by intro t ht; fin_cases ht <;> norm_num)

/-- `C31_schedule_independent`, `C31_bad_jobs`: twelve sources on the octahedron, four processes, and none. -/
example (lstsq : Mat3 → Mat3) (out : Py (List (Fin 6 → ℝ))) :
    (VbapOutcome Oct.faces (invertTriplets lstsq Oct.faces Oct.pts) 2 (List.replicate 12 ![1, 1, -1]) 4 out ↔
      out = vbapSerial Oct.faces (invertTriplets lstsq Oct.faces Oct.pts) 2 (List.replicate 12 ![1, 1, -1])) ∧
    (VbapOutcome Oct.faces (invertTriplets lstsq Oct.faces Oct.pts) 2 (List.replicate 12 ![1, 1, -1]) 0 out ↔ out = .error .valueError) :=
  ⟨C31_schedule_independent _ _ _ _ 4 (by norm_num) out, C31_bad_jobs _ _ _ _ 0 (by norm_num) (by simp) out⟩

/-- `C32_first_call_partial`, `C33_layout_partial`: one triangle is removed, then gains are computed. -/
example (lstsq : Mat3 → Mat3) :
    (([Call.pop none none none (some [0, 2, 4])] ++ Call.vbap 2 [![1, 1, -1]] none :: [Call.pop none none none (some [0])]).foldl (Call.run lstsq) Oct.hull).invBase
      = some (invertTriplets lstsq ([Call.pop none none none (some [0, 2, 4])].foldl (Call.run lstsq) Oct.hull).valid Oct.hull.points) ∧
    getCharacteristicOrder lstsq ([Call.pop none none none (some [0, 2, 4])].foldl (Call.run lstsq) Oct.hull) = getCharacteristicOrder lstsq Oct.hull :=
  ⟨C32_first_call_partial lstsq Oct.hull rfl [.pop none none none (some [0, 2, 4])] (by simp) 2 [![1, 1, -1]] none [.pop none none none (some [0])],
    C33_layout_partial lstsq Oct.hull rfl [.pop none none none (some [0, 2, 4])] (by simp)⟩

/-- `C33_stored`, `C33_stale`: an order that has been stored; the routine of the specification exists. -/
example : getCharacteristicOrder (fun V => V) { Oct.hull with charOrder := some 3 } = .ok 3 ∧ ∃ lstsq, LstsqSpec lstsq :=
  ⟨C33_stored _ _ 3 rfl, exists_lstsq3⟩

end Verif.Props
