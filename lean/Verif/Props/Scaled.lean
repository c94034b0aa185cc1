import Verif.Props.Renumbered

/-!
C141: the unit of length does not matter. A layout given in another unit has the same triangles, VBAP and nearest loudspeaker gains in the same proportion, the same
characteristic order and the same Ambisonic decoder signals; for the latter even the distance of each loudspeaker is irrelevant.
-/

namespace Verif.Props
open Real Matrix Verif.Utils Verif.Decoder Verif.Sph

/-- A setup (`decoder.py` 36-110, attributes of `LoudspeakerSetup`) in another unit of length, `c` new units per old unit. -/
noncomputable def enlarge {L : ℕ} (c : ℝ) (h : Hull L) : Hull L :=
  { h with
    points := fun l => c • h.points l
    listener := c • h.listener
    d := fun l => c * h.d l
    centroids := h.centroids.map (c • ·)
    faceAreas := h.faceAreas.map (c ^ 2 * ·)
    faceNormals := h.faceNormals.map (c ^ 2 • ·)
    barycenter := c • h.barycenter
    invBase := h.invBase.map fun b => b.map (c⁻¹ • ·) }

theorem lstsq_scaled {lstsq : Mat3 → Mat3} (hl : LstsqSpec lstsq) {c : ℝ} (hc : 0 < c) (V : Mat3) : lstsq (c • V) = c⁻¹ • lstsq V := by
  have hx : ∀ s : Fin 3, (fun k => (c⁻¹ • lstsq V) k s) = c⁻¹ • fun k => lstsq V k s := fun s => by funext k; rfl
  have hcc : ∀ v : Fin 3 → ℝ, (c • V).mulVec (c⁻¹ • v) = V.mulVec v := fun v => by
    rw [Matrix.smul_mulVec, Matrix.mulVec_smul, smul_smul, mul_inv_cancel₀ hc.ne', one_smul]
  have hy' : ∀ y : Fin 3 → ℝ, (c • V).mulVec y = V.mulVec (c • y) := fun y => by rw [Matrix.smul_mulVec, Matrix.mulVec_smul]
  refine lstsq_unique (hl _) ⟨fun s y => ?_, fun s y hy => ?_⟩
  · rw [hx, hcc, hy']
    exact (hl V).min s (c • y)
  · rw [hx, hcc, hy'] at hy
    have := (hl V).least s (c • y) hy
    have e1 : ∑ k, (c⁻¹ • lstsq V) k s ^ 2 = (c⁻¹) ^ 2 * ∑ k, lstsq V k s ^ 2 := by
      rw [Finset.mul_sum]; exact Finset.sum_congr rfl fun k _ => by simp [mul_pow]
    have e2 : ∑ k, (c • y) k ^ 2 = c ^ 2 * ∑ k, y k ^ 2 := by
      rw [Finset.mul_sum]; exact Finset.sum_congr rfl fun k _ => by simp [mul_pow]
    rw [e1]
    rw [e2] at this
    calc (c⁻¹) ^ 2 * ∑ k, lstsq V k s ^ 2 ≤ (c⁻¹) ^ 2 * (c ^ 2 * ∑ k, y k ^ 2) := mul_le_mul_of_nonneg_left this (by positivity)
      _ = _ := by field_simp

theorem npNorm_scaled {p k : ℝ} (hp : p ≠ 0) (hk : 0 < k) {n : ℕ} (v : Fin n → ℝ) : npNorm p (k • v) = k * npNorm p v := by
  unfold npNorm
  have : ∑ i, |(k • v) i| ^ p = k ^ p * ∑ i, |v i| ^ p := by
    rw [Finset.mul_sum]
    refine Finset.sum_congr rfl fun i _ => ?_
    rw [Pi.smul_apply, smul_eq_mul, abs_mul, abs_of_pos hk, mul_rpow hk.le (abs_nonneg _)]
  rw [this, mul_rpow (by positivity) (Finset.sum_nonneg fun i _ => by positivity), ← rpow_mul hk.le, mul_one_div_cancel hp, rpow_one]

theorem scaled_try {p k : ℝ} (hp : p ≠ 0) (hk : 0 < k) (B : Mat3) (s : Vec3) : tryFace p (k • B) s = tryFace p B s := by
  unfold tryFace
  simp only [Matrix.smul_mulVec, npNorm_scaled hp hk]
  by_cases hn : npNorm p (B.mulVec s) = 0
  · rw [if_pos (by rw [hn, mul_zero]), if_pos hn]
  · rw [if_neg (mul_ne_zero hk.ne' hn), if_neg hn]
    have : ∀ i, (k • B.mulVec s) i / (k * npNorm p (B.mulVec s)) = B.mulVec s i / npNorm p (B.mulVec s) := fun i => by
      rw [Pi.smul_apply, smul_eq_mul, mul_div_mul_left _ _ hk.ne']
    simp only [this]

theorem scaled_search {p k : ℝ} (hp : p ≠ 0) (hk : 0 < k) (s : Vec3) (Bs : List Mat3) (i : ℕ) :
    searchFaces p s (Bs.map (k • ·)) i = searchFaces p s Bs i := by
  induction Bs generalizing i with
  | nil => rfl
  | cons B Bs ih => simp only [List.map_cons, searchFaces, scaled_try hp hk, ih]

theorem scaled_serial {L : ℕ} {p k : ℝ} (hp : p ≠ 0) (hk : 0 < k) (valid : List (Face L)) (Bs : List Mat3) (src : List Vec3) :
    vbapSerial valid (Bs.map (k • ·)) p src = vbapSerial valid Bs p src := by
  unfold vbapSerial
  congr 1
  funext s
  unfold vbapRow faceWrites
  rw [scaled_search hp hk]

/-- The gains of two hulls whose inverted bases and distances are proportional. -/
theorem scaled_gains {L : ℕ} (lstsq : Mat3 → Mat3) {p k c : ℝ} (hp : p ≠ 0) (hk : 0 < k) (hc : 0 < c) (src : List Vec3) (valid : Option (List (Face L))) (h h' : Hull L)
    (hv : h'.valid = h.valid) (hb : vbase lstsq h' (valid.getD h.valid) = (vbase lstsq h (valid.getD h.valid)).map (k • ·)) (hd : ∀ l, h'.d l = c * h.d l)
    (hd0 : ∀ l, 0 ≤ h.d l) (ha : h'.a = h.a) :
    (vbapHull lstsq p src valid h').1 = (vbapHull lstsq p src valid h).1.map fun rows => rows.map fun g l => c ^ h.a * g l := by
  unfold vbapHull
  simp only [hv, hb, scaled_serial hp hk]
  cases vbapSerial (valid.getD h.valid) (vbase lstsq h (valid.getD h.valid)) p src with
  | error e => rfl
  | ok rows =>
    show Except.ok _ = Except.ok _
    congr 1
    beta_reduce
    rw [List.map_map]
    refine List.map_congr_left fun r _ => ?_
    funext l
    simp only [Function.comp]
    rw [hd, ha, mul_rpow hc.le (hd0 l)]
    ring

theorem enlarge_vbase {L : ℕ} {lstsq : Mat3 → Mat3} (hl : LstsqSpec lstsq) {c : ℝ} (hc : 0 < c) (h : Hull L) (valid : List (Face L)) :
    vbase lstsq (enlarge c h) valid = (vbase lstsq h valid).map (c⁻¹ • ·) := by
  unfold vbase
  simp only [enlarge]
  cases h.invBase with
  | some b => rfl
  | none =>
    simp only [Option.map_none, invertTriplets, List.map_map]
    refine List.map_congr_left fun f _ => ?_
    have e : (Matrix.of fun i => c • h.points (f i) : Mat3) = c • Matrix.of fun i => h.points (f i) := by ext i j; rfl
    rw [e, lstsq_scaled hl hc, Matrix.transpose_smul]
    rfl

/-- **C141** VBAP: in another unit of length all gains are multiplied by `c ^ a`, the same factor as the distances to the power `a`, whatever the state of the setup; the
setup left behind is the enlarged one. -/
theorem C141_vbap {L : ℕ} (lstsq : Mat3 → Mat3) (hl : LstsqSpec lstsq) {c : ℝ} (hc : 0 < c) {p : ℝ} (hp : p ≠ 0) (src : List Vec3)
    (valid : Option (List (Face L))) (h : Hull L) (hd : ∀ l, 0 ≤ h.d l) :
    vbapHull lstsq p src valid (enlarge c h)
      = ((vbapHull lstsq p src valid h).1.map fun rows => rows.map fun g l => c ^ h.a * g l, enlarge c (vbapHull lstsq p src valid h).2) := by
  refine Prod.ext (scaled_gains lstsq hp (inv_pos.2 hc) hc src valid h (enlarge c h) rfl (enlarge_vbase hl hc h _) (fun _ => rfl) hd rfl) ?_
  unfold vbapHull
  simp only [enlarge_vbase hl hc]
  rfl

/-- A setup with its Ambisonics version (`decoder.py` 170-244 `ambisonics_setup`) in another unit of length. -/
noncomputable def enlargeSetup {L : ℕ} (c : ℝ) (s : Setup L) : Setup L :=
  { s with toHull := enlarge c s.toHull, ambi := s.ambi.map fun am => { am with hull := enlarge c am.hull } }

theorem npNorm_list (p : ℝ) (l : List ℝ) : npNorm p (fun i : Fin l.length => l[i]) = (l.map fun x => |x| ^ p).sum ^ (1 / p) := by
  unfold npNorm
  rw [← List.sum_ofFn, ← List.ofFn_getElem_eq_map l fun x => |x| ^ p]
  rfl

theorem vbip_scaled {p k : ℝ} (hp : 0 < p) (hk : 0 < k) (g : List ℝ) : vbipRow p (g.map (k * ·)) = vbipRow p g := by
  obtain ⟨r, hr⟩ : ∃ r : List ℝ, r = (g.map fun x => if x < 0 then 0 else x).map fun x => √x := ⟨_, rfl⟩
  have hr' : (((g.map (k * ·)).map fun x => if x < 0 then 0 else x).map fun x => √x) = r.map (√k * ·) := by
    rw [hr]
    simp only [List.map_map]
    refine List.map_congr_left fun x _ => ?_
    simp only [Function.comp]
    by_cases hx : x < 0
    · rw [if_pos hx, if_pos (mul_neg_of_pos_of_neg hk hx), sqrt_zero, mul_zero]
    · rw [if_neg hx, if_neg (not_lt.2 (mul_nonneg hk.le (not_lt.1 hx))), sqrt_mul hk.le]
  have hs : 0 < √k := sqrt_pos.2 hk
  have hn : npNorm p (fun i : Fin (r.map (√k * ·)).length => (r.map (√k * ·))[i]) = √k * npNorm p fun i : Fin r.length => r[i] := by
    rw [npNorm_list, npNorm_list, List.map_map]
    have : ((fun x => |x| ^ p) ∘ fun x => √k * x) = fun x => (√k) ^ p * |x| ^ p := by
      funext x
      simp only [Function.comp]
      rw [abs_mul, abs_of_pos hs, mul_rpow hs.le (abs_nonneg _)]
    rw [this, List.sum_map_mul_left, mul_rpow (by positivity) (List.sum_nonneg (by intro x hx; obtain ⟨y, -, rfl⟩ := List.mem_map.1 hx; positivity)),
      ← rpow_mul hs.le, mul_one_div_cancel hp.ne', rpow_one]
  obtain ⟨F, hF⟩ : ∃ F : List ℝ → List ℝ, F = fun r => if npNorm p (fun i : Fin r.length => r[i]) > 0 then
      r.map fun x => x / npNorm p (fun i : Fin r.length => r[i]) else r := ⟨_, rfl⟩
  have hd : ∀ g, vbipRow p g = F ((g.map fun x => if x < 0 then 0 else x).map fun x => √x) := by
    intro g; rw [hF]; rfl
  rw [hd, hd, hr', ← hr, hF]
  beta_reduce
  rw [hn]
  by_cases h0 : npNorm p (fun i : Fin r.length => r[i]) > 0
  · rw [if_pos h0, if_pos (mul_pos hs h0), List.map_map]
    refine List.map_congr_left fun x _ => ?_
    simp only [Function.comp]
    rw [mul_div_mul_left _ _ hs.ne']
  · rw [if_neg h0, if_neg (fun q => h0 (pos_of_mul_pos_right q hs.le))]
    have hz : npNorm p (fun i : Fin r.length => r[i]) = 0 := le_antisymm (not_lt.1 h0) (npNorm_nonneg _ _)
    rw [npNorm_list] at hz
    have hnn : ∀ y ∈ r.map fun x => |x| ^ p, 0 ≤ y := by
      intro x hx; obtain ⟨y, -, rfl⟩ := List.mem_map.1 hx; positivity
    have hsum := ((rpow_eq_zero_iff_of_nonneg (List.sum_nonneg hnn)).1 hz).1
    conv_rhs => rw [← List.map_id r]
    refine List.map_congr_left fun x hx => ?_
    have hm : |x| ^ p ∈ r.map fun x => |x| ^ p := List.mem_map.2 ⟨x, hx, rfl⟩
    have : |x| ^ p = 0 := le_antisymm (hsum ▸ List.single_le_sum hnn _ hm) (hnn _ hm)
    have hx0 : x = 0 := abs_eq_zero.1 ((rpow_eq_zero_iff_of_nonneg (abs_nonneg x)).1 this).1
    rw [hx0, mul_zero]; rfl

/-- **C141** `vbap` and `vbip`, with or without imaginary loudspeakers: in another unit of length the gains of `vbap` are multiplied by `c ^ a`, those of `vbip`, which are
normalised, stay; errors stay, and the setup afterwards is the enlarged one. -/
theorem C141_panning {L : ℕ} (lstsq : Mat3 → Mat3) (hl : LstsqSpec lstsq) {c : ℝ} (hc : 0 < c) {p : ℝ} (hp : 0 < p) (src : List Vec3)
    (valid : Option (List (Face L))) (retain : Bool) (s : Setup L) (hd : ∀ l, 0 ≤ s.d l) (ha : ∀ am, s.ambi = some am → am.hull.a = s.a ∧ ∀ l, 0 ≤ am.hull.d l) :
    vbap lstsq p src valid retain (enlargeSetup c s)
      = ((vbap lstsq p src valid retain s).1.map fun rows => rows.map fun g => g.map (c ^ s.a * ·), enlargeSetup c (vbap lstsq p src valid retain s).2) ∧
    vbip lstsq p src valid retain (enlargeSetup c s) = ((vbip lstsq p src valid retain s).1, enlargeSetup c (vbip lstsq p src valid retain s).2) := by
  have key : ∀ {p : ℝ}, 0 < p → vbap lstsq p src valid retain (enlargeSetup c s)
      = ((vbap lstsq p src valid retain s).1.map fun rows => rows.map fun g => g.map (c ^ s.a * ·), enlargeSetup c (vbap lstsq p src valid retain s).2) := by
    intro p hp
    cases retain with
    | false =>
      have hv := C141_vbap lstsq hl hc hp.ne' src valid s.toHull hd
      unfold vbap
      simp only [Bool.false_eq_true, if_false, enlargeSetup, hv]
      congr 1
      cases (vbapHull lstsq p src valid s.toHull).1 with
      | error e => rfl
      | ok rows =>
        show Except.ok _ = Except.ok _
        congr 1
        simp only [List.map_map]
        refine List.map_congr_left fun g _ => ?_
        simp [Function.comp, List.map_ofFn]
        rfl
    | true =>
      cases hv : valid with
      | some v => rfl
      | none =>
        cases hm : s.ambi with
        | none => simp [vbap, enlargeSetup, hm, Except.map]
        | some am =>
          cases hi : am.imaginary with
          | none => simp [vbap, enlargeSetup, hm, hi, Except.map]
          | some idx =>
            have hv := C141_vbap lstsq hl hc hp.ne' src none am.hull (ha am hm).2
            simp only [vbap, enlargeSetup, hm, hi, Option.map_some, Option.isSome_none, Bool.false_eq_true, if_false, if_true, hv, (ha am hm).1]
            congr 1
            cases (vbapHull lstsq p src none am.hull).1 with
            | error e => rfl
            | ok rows =>
              show Except.ok _ = Except.ok _
              congr 1
              simp only [List.map_map]
              refine List.map_congr_left fun g _ => ?_
              simp [Function.comp, npDelete, List.map_map]
  refine ⟨key hp, ?_⟩
  unfold vbip
  rw [key two_pos]
  simp only
  congr 1
  cases (vbap lstsq 2 src valid retain s).1 with
  | error e => rfl
  | ok rows =>
    show Except.ok _ = Except.ok _
    congr 1
    simp only [List.map_map]
    exact List.map_congr_left fun g _ => vbip_scaled hp (by positivity) g

/-- **C141** Nearest loudspeaker selection: the same loudspeaker, its gain multiplied by `c ^ a`. -/
theorem C141_nls {L : ℕ} {c : ℝ} (hc : 0 < c) (h : Hull L) (hd : ∀ l, 0 ≤ h.d l) (s : Vec3) :
    nearestLoudspeaker (enlarge c h) s = (nearestLoudspeaker h s).map fun g l => c ^ h.a * g l := by
  unfold nearestLoudspeaker
  have : ∀ l, (fun k => (enlarge c h).points l k / (enlarge c h).d l) = fun k => h.points l k / h.d l := fun l => by
    funext k
    simp only [enlarge, Pi.smul_apply, smul_eq_mul]
    rw [mul_div_mul_left _ _ hc.ne']
  simp only [this]
  cases npArgmax (List.ofFn fun l => s ⬝ᵥ fun k => h.points l k / h.d l) with
  | error e => rfl
  | ok i =>
    show Except.ok _ = Except.ok _
    congr 1
    funext l
    simp only [enlarge, mul_rpow hc.le (hd l)]
    split_ifs <;> ring

/-! #### directions -/

theorem dirOf_smul {k : ℝ} (hk : 0 < k) (v : Vec3) : dirOf (k • v) = dirOf v := by
  unfold dirOf cart2sph
  simp only [Pi.smul_apply, smul_eq_mul, Bool.false_eq_true, if_false, Bool.not_false, if_true]
  have h1 : arctan2 (k * v 1) (k * v 0) = arctan2 (v 1) (v 0) := by
    unfold arctan2
    have : (⟨k * v 0, k * v 1⟩ : ℂ) = (k : ℂ) * ⟨v 0, v 1⟩ := by apply Complex.ext <;> simp
    rw [this, Complex.arg_real_mul _ hk]
  have h2 : √((k * v 0) ^ 2 + (k * v 1) ^ 2 + (k * v 2) ^ 2) = k * √(v 0 ^ 2 + v 1 ^ 2 + v 2 ^ 2) := by
    rw [show (k * v 0) ^ 2 + (k * v 1) ^ 2 + (k * v 2) ^ 2 = k ^ 2 * (v 0 ^ 2 + v 1 ^ 2 + v 2 ^ 2) by ring, sqrt_mul (sq_nonneg k), sqrt_sq hk.le]
  rw [h1, h2, mul_div_mul_left _ _ hk.ne']

theorem project_smul {k : ℝ} (hk : 0 < k) (v : Vec3) : Decoder.projectOnSphere (k • v) = Decoder.projectOnSphere v := by
  have := dirOf_smul hk v
  unfold dirOf at this
  have h1 := congrArg Prod.fst this
  have h2 := congrArg Prod.snd this
  simp only at h1 h2
  unfold Decoder.projectOnSphere
  simp only [h1, h2]

theorem shAt_moved {N L : ℕ} {points points' : Fin L → Vec3} {k : Fin L → ℝ} (hk : ∀ l, 0 < k l) (hp : ∀ l, points' l = k l • points l) :
    shAt N points' = shAt N points := by
  ext l q
  show shVec N (dirOf (points' l)).1 (dirOf (points' l)).2 q = shVec N (dirOf (points l)).1 (dirOf (points l)).2 q
  rw [hp, dirOf_smul (hk l)]

/-- **C141** `sad`, `mad` and `epad` see the directions of the loudspeakers only: moving each of them along its line of sight, nearer or further by its own factor,
changes no signal at a given order. In particular distances are not compensated. -/
theorem C141_distance {L S K : ℕ} (N : ℕ) (lstsq : Mat3 → Mat3) (pinv : {m n : ℕ} → Matrix (Fin m) (Fin n) ℝ → Matrix (Fin n) (Fin m) ℝ)
    (svd : {m n : ℕ} → Matrix (Fin m) (Fin n) ℝ → Matrix (Fin m) (Fin m) ℝ × Matrix (Fin n) (Fin n) ℝ) (h h' : Hull L) (k : Fin L → ℝ) (hk : ∀ l, 0 < k l)
    (hp : ∀ l, h'.points l = k l • h.points l) (F : Matrix (Fin K) (Fin S) ℝ) :
    sad lstsq F h' (some N) = sad lstsq F h (some N) ∧ mad lstsq pinv F h' (some N) = mad lstsq pinv F h (some N) ∧
      epad lstsq svd F h' (some N) = epad lstsq svd F h (some N) := by
  unfold sad mad epad decodingOrder
  simp only [shAt_moved hk hp, and_self]

theorem rE_scaled {L : ℕ} (p : Fin L → Vec3) (g : Fin L → ℝ) {k : ℝ} (hk : 0 < k) : (rE p fun l => k * g l).2 = (rE p g).2 := by
  unfold rE
  have e : ∑ q, (k * g q) ^ 2 = k ^ 2 * ∑ q, g q ^ 2 := by
    rw [Finset.mul_sum]; exact Finset.sum_congr rfl fun q _ => by ring
  by_cases hE : ∑ q, g q ^ 2 = 0
  · simp only [e, hE, mul_zero, if_true]
  · have hE' : k ^ 2 * ∑ q, g q ^ 2 ≠ 0 := mul_ne_zero (by positivity) hE
    simp only [e, if_neg hE, if_neg hE']
    congr 1
    refine Finset.sum_congr rfl fun c _ => ?_
    have : ∑ q, (k * g q) ^ 2 * p q c = k ^ 2 * ∑ q, g q ^ 2 * p q c := by
      rw [Finset.mul_sum]; exact Finset.sum_congr rfl fun q _ => by ring
    rw [this]
    congr 1
    field_simp

/-- **C141** The characteristic order is the same in any unit of length. -/
theorem C141_order {L : ℕ} (lstsq : Mat3 → Mat3) {c : ℝ} (hc : 0 < c) (h : Hull L) (hd : ∀ l, 0 ≤ h.d l) :
    getCharacteristicOrder lstsq (enlarge c h) = getCharacteristicOrder lstsq h := by
  have : characteristicAmbisonicOrder lstsq (enlarge c h) = characteristicAmbisonicOrder lstsq h := by
    unfold characteristicAmbisonicOrder
    have e1 : (fun l => Decoder.projectOnSphere ((enlarge c h).points l)) = fun l => Decoder.projectOnSphere (h.points l) := by
      funext l; exact project_smul hc _
    have e2 : (enlarge c h).centroids.map Decoder.projectOnSphere = h.centroids.map Decoder.projectOnSphere := by
      unfold enlarge
      simp only [List.map_map]
      exact List.map_congr_left fun v _ => project_smul hc v
    have e3 : (vbapHull lstsq 2 (h.centroids.map Decoder.projectOnSphere) (some h.encloses)
          { enlarge c h with points := fun l => Decoder.projectOnSphere (h.points l) }).1
        = (vbapHull lstsq 2 (h.centroids.map Decoder.projectOnSphere) (some h.encloses)
          { h with points := fun l => Decoder.projectOnSphere (h.points l) }).1.map fun rows => rows.map fun g l => c ^ h.a * g l := by
      obtain ⟨k, hk, hb⟩ : ∃ k : ℝ, 0 < k ∧ vbase lstsq { enlarge c h with points := fun l => Decoder.projectOnSphere (h.points l) } h.encloses
          = (vbase lstsq { h with points := fun l => Decoder.projectOnSphere (h.points l) } h.encloses).map (k • ·) := by
        cases hb : h.invBase with
        | none => exact ⟨1, one_pos, by simp [vbase, enlarge, hb]⟩
        | some b => exact ⟨c⁻¹, inv_pos.2 hc, by simp [vbase, enlarge, hb]⟩
      exact scaled_gains lstsq two_ne_zero hk hc _ (some h.encloses) { h with points := fun l => Decoder.projectOnSphere (h.points l) }
        { enlarge c h with points := fun l => Decoder.projectOnSphere (h.points l) } rfl hb (fun _ => rfl) hd rfl
    simp only [e1, e2]
    change (vbapHull lstsq 2 _ (some h.encloses) _).1 >>= _ = _
    rw [e3]
    cases (vbapHull lstsq 2 (h.centroids.map Decoder.projectOnSphere) (some h.encloses) { h with points := fun l => Decoder.projectOnSphere (h.points l) }).1 with
    | error e => rfl
    | ok rows =>
      show orderFromMags _ = orderFromMags _
      rw [List.map_map]
      congr 1
      exact List.map_congr_left fun g _ => rE_scaled _ g (by positivity)
  unfold getCharacteristicOrder
  simp only [this]
  rfl

/-- **C141** `sad`, `mad` and `epad` return the same signals in any unit of length, also at the order the layout determines. -/
theorem C141_decoders {L S K : ℕ} (lstsq : Mat3 → Mat3) (pinv : {m n : ℕ} → Matrix (Fin m) (Fin n) ℝ → Matrix (Fin n) (Fin m) ℝ)
    (svd : {m n : ℕ} → Matrix (Fin m) (Fin n) ℝ → Matrix (Fin m) (Fin m) ℝ × Matrix (Fin n) (Fin n) ℝ) {c : ℝ} (hc : 0 < c) (h : Hull L) (hd : ∀ l, 0 ≤ h.d l)
    (No : Option ℕ) (F : Matrix (Fin K) (Fin S) ℝ) :
    sad lstsq F (enlarge c h) No = sad lstsq F h No ∧ mad lstsq pinv F (enlarge c h) No = mad lstsq pinv F h No ∧
      epad lstsq svd F (enlarge c h) No = epad lstsq svd F h No := by
  have ho : decodingOrder lstsq (enlarge c h) No = decodingOrder lstsq h No := by
    unfold decodingOrder
    simp only [C141_order lstsq hc h hd]
    rfl
  have hs : ∀ N, shAt N (enlarge c h).points = shAt N h.points := fun N => shAt_moved (k := fun _ => c) (fun _ => hc) fun _ => rfl
  unfold sad mad epad
  simp only [ho, hs, and_self]

/-! #### the setup -/

theorem centroid_smul {L : ℕ} (c : ℝ) (pts : Fin L → Vec3) (f : Face L) : centroid (fun l => c • pts l) f = c • centroid pts f := by
  funext k
  simp only [centroid, Pi.smul_apply, smul_eq_mul, Fin.sum_univ_three]
  ring

theorem barycenter_smul {L : ℕ} (c : ℝ) (pts : Fin L → Vec3) : calculateBarycenter (fun l => c • pts l) = c • calculateBarycenter pts := by
  funext k
  simp only [calculateBarycenter, Pi.smul_apply, smul_eq_mul, ← Finset.mul_sum]
  ring

theorem cross_smul (c : ℝ) (u v : Vec3) : crossProduct (c • u) (c • v) = c ^ 2 • crossProduct u v := by
  rw [LinearMap.map_smul, LinearMap.map_smul, LinearMap.smul_apply, smul_smul, sq]

/-- **C141** Building a setup from the same positions in another unit gives the enlarged setup, provided that in both units all faces are further from the barycenter than
the tolerance `10e-6` (a volume) with which the normals are oriented. Qhull is assumed to list the same faces. -/
theorem C141_setup {L : ℕ} (qhull : (L : ℕ) → (Fin L → Vec3) → Py (List (Face L))) {c : ℝ} (hc : 0 < c) (points : Fin L → Vec3) (listener : Vec3)
    (hq : qhull L (fun l => c • (points l - listener)) = qhull L fun l => points l - listener)
    (hs : ∀ fs, qhull L (fun l => points l - listener) = .ok fs → ∀ f ∈ sortVertices fs, Sided (fun l => points l - listener) f ∧ Sided (fun l => c • (points l - listener)) f) :
    mkHull qhull (fun l => c • points l) (c • listener) = (mkHull qhull points listener).map (enlarge c) := by
  unfold mkHull
  simp only [← smul_sub, hq]
  cases hf : qhull L fun l => points l - listener with
  | error e => rfl
  | ok faces =>
    have hs := hs faces hf
    obtain ⟨pts, hpts⟩ : ∃ pts : Fin L → Vec3, pts = fun l => points l - listener := ⟨_, rfl⟩
    have hpt : ∀ l, points l - listener = pts l := fun l => by rw [hpts]
    simp only [hpt] at hs ⊢
    have hcen : calculateCentroids (fun l => c • pts l) (sortVertices faces) = (calculateCentroids pts (sortVertices faces)).map (c • ·) := by
      simp only [calculateCentroids, List.map_map]
      exact List.map_congr_left fun f _ => centroid_smul c pts f
    have henc : ∀ (fs : List (Face L)) (cs : List Vec3) (b : Vec3), checkListenerInside fs (cs.map (c • ·)) (c • b) 0 = checkListenerInside fs cs b 0 := by
      intro fs cs b
      unfold checkListenerInside
      rw [List.zip_map_right, List.filter_map, List.map_map]
      congr 1
      refine List.filter_congr fun t _ => decide_eq_decide.2 (not_congr ?_)
      have e : ((0 : Vec3) - c • t.2) ⬝ᵥ (c • b - c • t.2) = c ^ 2 * ((0 - t.2) ⬝ᵥ (b - t.2)) := by
        rw [zero_sub, zero_sub, ← smul_neg, ← smul_sub, smul_dotProduct, dotProduct_smul, smul_eq_mul, smul_eq_mul]; ring
      simp only [Prod.map, id, e]
      constructor
      · intro h0; by_contra h1; push Not at h1; exact absurd h0 (not_lt.2 (by positivity))
      · intro h0; exact mul_neg_of_pos_of_neg (by positivity) h0
    have hn : calculateFaceNormals (fun l => c • pts l) (sortVertices faces) = (calculateFaceNormals pts (sortVertices faces)).map (c ^ 2 • ·) := by
      simp only [calculateFaceNormals, List.map_map]
      refine List.map_congr_left fun f hf => ?_
      obtain ⟨s1, s2⟩ := hs f hf
      unfold Sided at s1 s2
      simp only [centroid_smul, barycenter_smul, ← smul_sub, cross_smul, smul_dotProduct, dotProduct_smul, smul_eq_mul, ← mul_assoc] at s2
      simp only [faceNormal, centroid_smul, barycenter_smul, ← smul_sub, cross_smul, Function.comp, add_sub_cancel_left, smul_dotProduct, dotProduct_smul, smul_eq_mul, ← mul_assoc]
      generalize (crossProduct (pts (f 1) - pts (f 0))) (pts (f 2) - pts (f 0)) ⬝ᵥ (calculateBarycenter pts - centroid pts f) = v at s1 s2 ⊢
      rw [if_neg Bool.false_ne_true, if_neg Bool.false_ne_true]
      have hc3 : 0 < c * c ^ 2 := by positivity
      by_cases hv : 0 < v
      · rw [abs_of_pos hv] at s1
        rw [abs_of_pos (by positivity)] at s2
        rw [if_pos s1, if_pos s2, smul_neg]
      · push Not at hv
        have hv3 := mul_nonpos_of_nonneg_of_nonpos hc3.le hv
        rw [if_neg (by norm_num; linarith), if_neg (by norm_num; linarith)]
    have ha : calculateFaceAreas (fun l => c • pts l) (sortVertices faces) = (calculateFaceAreas pts (sortVertices faces)).map (c ^ 2 * ·) := by
      simp only [calculateFaceAreas, List.map_map]
      refine List.map_congr_left fun f _ => ?_
      simp only [areaTriangle, ← smul_sub, cross_smul, norm3_smul, Function.comp]
      rw [abs_of_pos (by positivity)]
      ring
    have hd : ∀ v : Vec3, (cart2sph ((c • v) 0) ((c • v) 1) ((c • v) 2) false false).2.2 = c * (cart2sph (v 0) (v 1) (v 2) false false).2.2 := by
      intro v
      show √((c * v 0) ^ 2 + (c * v 1) ^ 2 + (c * v 2) ^ 2) = c * √(v 0 ^ 2 + v 1 ^ 2 + v 2 ^ 2)
      rw [show (c * v 0) ^ 2 + (c * v 1) ^ 2 + (c * v 2) ^ 2 = c ^ 2 * (v 0 ^ 2 + v 1 ^ 2 + v 2 ^ 2) by ring, sqrt_mul (sq_nonneg c), sqrt_sq hc.le]
    have hE : checkListenerInside (sortVertices faces) (calculateCentroids (fun l => c • pts l) (sortVertices faces)) (c • calculateBarycenter pts) 0
        = checkListenerInside (sortVertices faces) (calculateCentroids pts (sortVertices faces)) (calculateBarycenter pts) 0 := by rw [hcen, henc]
    simp only [bind, Except.bind, pure, Except.pure, Except.map]
    congr 1
    unfold enlarge
    simp only [hcen, barycenter_smul, henc, hn, ha, smul_zero]
    congr 1
    · funext l
      exact hd (pts l)
    all_goals exact hE

theorem angle_smul {k k' : ℝ} (hk : 0 < k) (hk' : 0 < k') (v w : Vec3) : angleBetween (k • v) (k' • w) none = angleBetween v w none := by
  unfold angleBetween
  simp only [norm3_smul, smul_dotProduct, dotProduct_smul, smul_eq_mul, abs_of_pos hk, abs_of_pos hk']
  congr 2
  rw [show k * norm3 v * (k' * norm3 w) = (k' * k) * (norm3 v * norm3 w) by ring, ← mul_assoc, mul_div_mul_left _ _ (by positivity)]

theorem angle_from {c : ℝ} (hc : 0 < c) (u v w : Vec3) : angleBetween (c • u) (c • v) (some (c • w)) = angleBetween u v (some w) := by
  have := angle_smul hc hc (u - w) (v - w)
  rw [smul_sub, smul_sub] at this
  exact this

theorem angle_zero (u v : Vec3) : angleBetween u v (some 0) = angleBetween u v none := by
  unfold angleBetween; simp only [sub_zero]

/-- **C141** `pop_triangles` removes the same faces in any unit of length. -/
theorem C141_pop {L : ℕ} {c : ℝ} (hc : 0 < c) (h : Hull L) (h0 : h.listener = 0) (normal aperture opening : Option ℝ) (blacklist : Option (List ℕ)) :
    popTriangles (enlarge c h) normal aperture opening blacklist = enlarge c (popTriangles h normal aperture opening blacklist) := by
  have h1 : ∀ (h : Hull L) o, h.listener = 0 → popNormal (enlarge c h) o = enlarge c (popNormal h o) := by
    intro h o h0
    cases o with
    | none => rfl
    | some l =>
      have : checkNormals (enlarge c h) l = checkNormals h l := by
        unfold checkNormals enlarge
        simp only [h0, smul_zero]
        rw [List.zip_map, List.zip_map_right, List.filter_map, List.map_map]
        congr 1
        refine List.filter_congr fun t _ => ?_
        simp only [Function.comp, Prod.map, id, angle_zero, angle_smul hc (show 0 < c ^ 2 by positivity)]
      simp only [popNormal, this]
      rfl
  have h2 : ∀ (h : Hull L) o, popAperture (enlarge c h) o = enlarge c (popAperture h o) := by
    intro h o
    cases o with
    | none => rfl
    | some l =>
      have : checkAperture (enlarge c h) l = checkAperture h l := by
        refine List.filter_congr fun f _ => decide_eq_decide.2 (not_congr ?_)
        unfold apertureBad enlarge
        simp only [angle_from hc]
      simp only [popAperture, this]
      rfl
  have h3 : ∀ (h : Hull L) o, popOpening (enlarge c h) o = enlarge c (popOpening h o) := by
    intro h o
    cases o with
    | none => rfl
    | some l =>
      have : checkOpening (enlarge c h) l = checkOpening h l := by
        refine List.filter_congr fun f _ => decide_eq_decide.2 (not_congr ?_)
        unfold openingBad enlarge
        simp only [angle_from hc]
      simp only [popOpening, this]
      rfl
  have h4 : ∀ (h : Hull L) o, popBlacklist (enlarge c h) o = enlarge c (popBlacklist h o) := by
    intro h o
    cases o with
    | none => rfl
    | some l => rfl
  unfold popTriangles
  rw [h1 h normal h0, h2, h3, h4]

/-- The octahedron given in a unit in which the loudspeakers are 1/100 away. -/
noncomputable def smallOct : Hull 6 :=
  { points := fun l => (1 / 100 : ℝ) • Oct.pts l, listener := 0, d := fun _ => 1 / 100, a := 1, simplices := Oct.faces,
    centroids := calculateCentroids (fun l => (1 / 100 : ℝ) • Oct.pts l) Oct.faces, faceAreas := calculateFaceAreas (fun l => (1 / 100 : ℝ) • Oct.pts l) Oct.faces,
    faceNormals := calculateFaceNormals (fun l => (1 / 100 : ℝ) • Oct.pts l) Oct.faces, barycenter := 0, encloses := Oct.faces, valid := Oct.faces,
    invBase := none, charOrder := none }

theorem smallOct_eq : mkHull Oct.qhull (fun l => (1 / 100 : ℝ) • Oct.pts l) 0 = .ok smallOct := by
  unfold mkHull Oct.qhull
  rw [dif_pos rfl]
  show Except.ok _ = Except.ok _
  have hr : ∀ l, (cart2sph (((1 / 100 : ℝ) • Oct.pts l) 0) (((1 / 100 : ℝ) • Oct.pts l) 1) (((1 / 100 : ℝ) • Oct.pts l) 2) false false).2.2 = 1 / 100 := by
    intro l
    rw [Oct.cart2sph_radius]
    have := Oct.radius_pts l
    rw [Oct.cart2sph_radius] at this
    simp only [Pi.smul_apply, smul_eq_mul]
    rw [show (1 / 100 * Oct.pts l 0) ^ 2 + (1 / 100 * Oct.pts l 1) ^ 2 + (1 / 100 * Oct.pts l 2) ^ 2
      = (1 / 100) ^ 2 * (Oct.pts l 0 ^ 2 + Oct.pts l 1 ^ 2 + Oct.pts l 2 ^ 2) by ring, sqrt_mul (by norm_num), this, sqrt_sq (by norm_num), mul_one]
  simp only [Oct.sort_raw, barycenter_smul, Oct.barycenter_pts, smul_zero, sub_zero, hr]
  have : checkListenerInside Oct.faces (calculateCentroids (fun l => (1 / 100 : ℝ) • Oct.pts l) Oct.faces) 0 0 = Oct.faces := by
    unfold checkListenerInside calculateCentroids
    have hz : Oct.faces.zip (Oct.faces.map (centroid fun l => (1 / 100 : ℝ) • Oct.pts l)) = Oct.faces.map fun f => (f, centroid (fun l => (1 / 100 : ℝ) • Oct.pts l) f) := by
      rw [List.zip_map_right, ← List.map_id Oct.faces, List.zip_map']
      simp
    rw [hz, List.filter_eq_self.2]
    · rw [List.map_map]; exact List.map_id Oct.faces
    · intro t ht
      obtain ⟨f, _, rfl⟩ := List.mem_map.1 ht
      simp only [decide_eq_true_eq, not_lt, zero_sub]
      exact Finset.sum_nonneg fun c _ => mul_self_nonneg _
  rw [this]; rfl

theorem smallOct_wf : WellFormed smallOct := by
  obtain ⟨h1, h2, -, -, -, -⟩ := oct_wf
  exact ⟨h1, h2, rfl, rfl, List.Sublist.refl _, rfl⟩

theorem deg85 : deg2rad 85 = 85 / 180 * π := by
  unfold deg2rad pyMod
  rw [show ⌊(85 : ℝ) / 360⌋ = 0 by rw [Int.floor_eq_iff]; norm_num]
  simp

theorem face025 : crossProduct (Oct.pts ((![0, 2, 5] : Face 6) 1) - Oct.pts ((![0, 2, 5] : Face 6) 0)) (Oct.pts ((![0, 2, 5] : Face 6) 2) - Oct.pts ((![0, 2, 5] : Face 6) 0)) = ![-1, -1, 1] ∧
    centroid Oct.pts ![0, 2, 5] = (-1 / 3 : ℝ) • ![-1, -1, 1] := by
  constructor
  · simp [Oct.pts, cross_apply]
  · funext c
    fin_cases c <;> simp [centroid, Oct.pts, Fin.sum_univ_three] <;> norm_num

/-- **C141** fails for `pop_triangles` with a limit on the normals: the octahedron keeps its triangle of loudspeakers 0, 2 and 5, but loses it when the same positions are
given in a hundred times larger unit, because there the normal is not turned outwards. -/
theorem C141_normals_fail : ∃ h h' : Hull 6, mkHull Oct.qhull Oct.pts 0 = .ok h ∧ mkHull Oct.qhull (fun l => (1 / 100 : ℝ) • Oct.pts l) 0 = .ok h' ∧
    ![0, 2, 5] ∈ (popTriangles h (some 85) none none none).valid ∧ ![0, 2, 5] ∉ (popTriangles h' (some 85) none none none).valid := by
  classical
  refine ⟨Oct.hull, smallOct, Oct.mkHull_eq, smallOct_eq, ?_, ?_⟩
  · show _ ∈ checkNormals Oct.hull 85
    rw [checkNormals_eq oct_wf, List.mem_filter]
    refine ⟨by show _ ∈ Oct.faces; decide, ?_⟩
    rw [decide_eq_true_eq]
    have hn : faceNormal Oct.hull.points (calculateBarycenter Oct.hull.points) 10e-6 false ![0, 2, 5] = -![-1, -1, 1] := by
      show faceNormal Oct.pts (calculateBarycenter Oct.pts) 10e-6 false ![0, 2, 5] = _
      unfold faceNormal
      simp only [face025.1, face025.2, Oct.barycenter_pts, add_sub_cancel_left, Bool.false_eq_true, if_false]
      rw [if_pos]
      simp [dotProduct, Fin.sum_univ_three]; norm_num
    rw [hn, show centroid Oct.hull.points ![0, 2, 5] = (1 / 3 : ℝ) • -![-1, -1, 1] by
      rw [show Oct.hull.points = Oct.pts from rfl, face025.2, smul_neg, ← neg_smul]; norm_num]
    have := angle_smul (k := 1 / 3) (k' := 1) (by norm_num) one_pos (-![-1, -1, 1] : Vec3) (-![-1, -1, 1])
    rw [one_smul] at this
    rw [this]
    have h0 : angleBetween (-![-1, -1, 1] : Vec3) (-![-1, -1, 1]) none = 0 := by
      unfold angleBetween
      simp only
      have : norm3 (-![-1, -1, 1] : Vec3) * norm3 (-![-1, -1, 1] : Vec3) = (-![-1, -1, 1] : Vec3) ⬝ᵥ (-![-1, -1, 1] : Vec3) := by
        unfold norm3
        exact mul_self_sqrt (by simp [dotProduct, Fin.sum_univ_three]; norm_num)
      rw [this, div_self (by simp [dotProduct, Fin.sum_univ_three]; norm_num)]
      simp [clip1]
    rw [h0, deg85]
    positivity
  · show _ ∉ checkNormals smallOct 85
    rw [checkNormals_eq smallOct_wf, List.mem_filter]
    rintro ⟨-, hm⟩
    rw [decide_eq_true_eq] at hm
    have hn : faceNormal smallOct.points (calculateBarycenter smallOct.points) 10e-6 false ![0, 2, 5] = ((1 / 100 : ℝ) ^ 2) • ![-1, -1, 1] := by
      show faceNormal (fun l => (1 / 100 : ℝ) • Oct.pts l) (calculateBarycenter fun l => (1 / 100 : ℝ) • Oct.pts l) 10e-6 false ![0, 2, 5] = _
      unfold faceNormal
      simp only [← smul_sub, cross_smul, face025.1, centroid_smul, face025.2, barycenter_smul, Oct.barycenter_pts, add_sub_cancel_left, Bool.false_eq_true, if_false]
      rw [if_neg]
      simp [dotProduct, Fin.sum_univ_three]; norm_num
    rw [hn, show centroid smallOct.points ![0, 2, 5] = (1 / 300 : ℝ) • -![-1, -1, 1] by
      rw [show smallOct.points = fun l => (1 / 100 : ℝ) • Oct.pts l from rfl, centroid_smul, face025.2, smul_neg, ← neg_smul, smul_smul]; norm_num,
      angle_smul (by norm_num) (by norm_num), deg85] at hm
    have h0 : angleBetween (-![-1, -1, 1] : Vec3) ![-1, -1, 1] none = π := by
      unfold angleBetween
      simp only
      have : norm3 (-![-1, -1, 1] : Vec3) * norm3 (![-1, -1, 1] : Vec3) = (![-1, -1, 1] : Vec3) ⬝ᵥ (![-1, -1, 1] : Vec3) := by
        unfold norm3
        rw [neg_dotProduct_neg]
        exact mul_self_sqrt (by simp [dotProduct, Fin.sum_univ_three]; norm_num)
      rw [this, neg_dotProduct, neg_div, div_self (by simp [dotProduct, Fin.sum_univ_three]; norm_num)]
      simp [clip1]
    rw [h0] at hm
    nlinarith [pi_pos]

/-- The unit of length of the octahedron: centimetres instead of metres leave its facets seen from the centre, so the setup in centimetres is the enlarged one. -/
example : mkHull Oct.qhull (fun l => (100 : ℝ) • Oct.pts l) ((100 : ℝ) • (0 : Vec3)) = .ok (enlarge 100 Oct.hull) := by
  rw [C141_setup Oct.qhull (by norm_num) Oct.pts 0 (by rfl), Oct.mkHull_eq]
  · rfl
  · intro fs hfs f hf
    have hfs : fs = Oct.rawFaces.map fun f i => Fin.cast rfl (f i) := by
      unfold Oct.qhull at hfs
      rw [dif_pos rfl] at hfs
      exact (Except.ok.inj hfs).symm
    rw [hfs, Oct.sort_raw] at hf
    unfold Sided
    rw [barycenter_smul]
    simp only [sub_zero, Oct.barycenter_pts, smul_zero]
    simp only [Oct.faces, List.mem_cons, List.not_mem_nil, or_false] at hf
    rcases hf with rfl | rfl | rfl | rfl | rfl | rfl | rfl | rfl <;>
      simp [Oct.pts, centroid, cross_apply, dotProduct, Fin.sum_univ_three] <;> norm_num

/-- Radii, positions and the search among the facets of the octahedron in another unit. -/
example {lstsq : Mat3 → Mat3} (hl : LstsqSpec lstsq) (src : List Vec3) :
    (vbapHull lstsq 2 src none (enlarge 100 Oct.hull)).1 = (vbapHull lstsq 2 src none Oct.hull).1.map fun rows => rows.map fun g l => (100 : ℝ) ^ Oct.hull.a * g l := by
  rw [C141_vbap lstsq hl (by norm_num) (by norm_num) src none Oct.hull (fun _ => zero_le_one)]

example : LstsqSpec (Classical.choose exists_lstsq3) := Classical.choose_spec exists_lstsq3

/-- The listener of the octahedron is at the origin. -/
example : popTriangles (enlarge 100 Oct.hull) (some 85) (some 100) none none = enlarge 100 (popTriangles Oct.hull (some 85) (some 100) none none) :=
  C141_pop (by norm_num) Oct.hull rfl _ _ _ _

/-- `C141_panning` with an imaginary loudspeaker, in centimetres. -/
example : ∃ lstsq : Mat3 → Mat3, ∀ src : List Vec3,
    (vbip lstsq 2 src none true (enlargeSetup 100 fiveSetup)).1 = (vbip lstsq 2 src none true fiveSetup).1 := by
  obtain ⟨lstsq, hl⟩ := exists_lstsq3
  refine ⟨lstsq, fun src => ?_⟩
  rw [(C141_panning lstsq hl (by norm_num) (by norm_num) src none true fiveSetup (fun _ => zero_le_one)
    (by intro am h; obtain rfl := Option.some.inj h; exact ⟨rfl, fun _ => zero_le_one⟩)).2]

/-- `C141_nls`, `C141_order` and `C141_decoders` for the octahedron in centimetres. -/
example (s : Vec3) (lstsq : Mat3 → Mat3) (pinv : {m n : ℕ} → Matrix (Fin m) (Fin n) ℝ → Matrix (Fin n) (Fin m) ℝ)
    (svd : {m n : ℕ} → Matrix (Fin m) (Fin n) ℝ → Matrix (Fin m) (Fin m) ℝ × Matrix (Fin n) (Fin n) ℝ) (F : Matrix (Fin 9) (Fin 2) ℝ) :
    nearestLoudspeaker (enlarge 100 Oct.hull) s = (nearestLoudspeaker Oct.hull s).map (fun g l => (100 : ℝ) ^ Oct.hull.a * g l) ∧
    getCharacteristicOrder lstsq (enlarge 100 Oct.hull) = getCharacteristicOrder lstsq Oct.hull ∧
    sad lstsq F (enlarge 100 Oct.hull) none = sad lstsq F Oct.hull none :=
  ⟨C141_nls (by norm_num) Oct.hull (fun _ => zero_le_one) s, C141_order lstsq (by norm_num) Oct.hull (fun _ => zero_le_one),
    (C141_decoders lstsq pinv svd (by norm_num) Oct.hull (fun _ => zero_le_one) none F).1⟩

/-- `C141_distance`: the loudspeakers of the octahedron at different distances. -/
example (lstsq : Mat3 → Mat3) (pinv : {m n : ℕ} → Matrix (Fin m) (Fin n) ℝ → Matrix (Fin n) (Fin m) ℝ)
    (svd : {m n : ℕ} → Matrix (Fin m) (Fin n) ℝ → Matrix (Fin m) (Fin m) ℝ × Matrix (Fin n) (Fin n) ℝ) (F : Matrix (Fin 9) (Fin 2) ℝ) :
    epad lstsq svd F { Oct.hull with points := fun l => ((l : ℝ) + 1) • Oct.hull.points l } (some 2) = epad lstsq svd F Oct.hull (some 2) :=
  (C141_distance 2 lstsq pinv svd Oct.hull { Oct.hull with points := fun l => ((l : ℝ) + 1) • Oct.hull.points l } (fun l => (l : ℝ) + 1)
    (fun l => by positivity) (fun _ => rfl) F).2.2

end Verif.Props
