import Verif.Props.AmbiPanning
import Verif.Props.ModalWeights

/-!
C102: the energy of the ALLRAP2 gains.
-/

namespace Verif.Props
open Real Verif.Sph Verif.Utils Verif.Decoder

/-- `P_n` of the max-rE angle of order `N`. -/
noncomputable def reLegendre (N n : ℕ) : ℝ := evalLegendre n (cos (137.9 * (π / 180) / (N + 1.51)))

/-- The energy which the gains have for every source direction: `∑ (2n+1) P_n² / ∑ (2n+2) P_n²`. -/
noncomputable def allrap2Energy (N : ℕ) : ℝ :=
  (∑ n ∈ Finset.range (N + 1), (2 * (n : ℝ) + 1) * reLegendre N n ^ 2)
    / ∑ n ∈ Finset.range (N + 1), (2 * (n : ℝ) + 2) * reLegendre N n ^ 2

theorem unity_maxre (N n : ℕ) (hn : n < N + 1) :
    (unityGain (maxREWeights N)).getD n 0 = reLegendre N n / steeringGain (maxREWeights N) := by
  rw [unityGain_eq]
  unfold maxREWeights reLegendre
  simp [List.getElem?_range hn]

theorem re_weighted_pos (N : ℕ) (c : ℕ → ℝ) (hc : ∀ n, 0 < c n) : 0 < ∑ n ∈ Finset.range (N + 1), c n * reLegendre N n ^ 2 := by
  refine lt_of_lt_of_le (b := c 0 * reLegendre N 0 ^ 2) ?_ (Finset.single_le_sum (f := fun n => c n * reLegendre N n ^ 2)
    (fun n _ => mul_nonneg (hc n).le (sq_nonneg _)) (by simp))
  have : reLegendre N 0 = 1 := evalLegendre_zero _
  rw [this]
  simpa using hc 0

theorem maxre_steering_ne (N : ℕ) : steeringGain (maxREWeights N) ≠ 0 := by
  unfold maxREWeights
  rw [steeringGain_range]
  have := sum_maxre_pos N
  positivity

/-- The energy of the tapered source encoding. -/
theorem taper2_energy (N : ℕ) (azi zen : ℝ) (hz : zen ∈ Set.Icc 0 π) :
    ∑ q, (shVec N azi zen q * taper2 N q) ^ 2 = allrap2Energy N := by
  set S := steeringGain (maxREWeights N) with hS
  have hS0 : S ≠ 0 := maxre_steering_ne N
  set aw : ℝ := √(∑ n ∈ Finset.range (N + 1), (2 * ((n : ℝ) + 1)) / (4 * π) * (unityGain (maxREWeights N)).getD n 0 ^ 2) with haw
  have ht : taper2 N = repVec N fun n => (unityGain (maxREWeights N)).getD n 0 / aw := rfl
  have haw2 : aw ^ 2 = (∑ n ∈ Finset.range (N + 1), (2 * (n : ℝ) + 2) * reLegendre N n ^ 2) / (4 * π * S ^ 2) := by
    rw [haw, Real.sq_sqrt (Finset.sum_nonneg fun n _ => by positivity), Finset.sum_div]
    refine Finset.sum_congr rfl fun n hn => ?_
    rw [unity_maxre N n (Finset.mem_range.1 hn), ← hS]
    have := pi_ne_zero
    field_simp
  have h1 := C16_steering_meaning N (fun n => ((unityGain (maxREWeights N)).getD n 0 / aw) ^ 2) azi zen hz
  rw [steeringGain_range] at h1
  have h2 : ∑ q, (shVec N azi zen q * taper2 N q) ^ 2
      = ∑ q, repVec N (fun n => ((unityGain (maxREWeights N)).getD n 0 / aw) ^ 2) q * shVec N azi zen q * shVec N azi zen q := by
    refine Finset.sum_congr rfl fun q _ => ?_
    rw [ht]; unfold repVec; ring
  rw [h2, h1]
  have h3 : ∀ n ∈ Finset.range (N + 1), (2 * (n : ℝ) + 1) * ((unityGain (maxREWeights N)).getD n 0 / aw) ^ 2
      = (2 * (n : ℝ) + 1) * reLegendre N n ^ 2 / (S ^ 2 * aw ^ 2) := by
    intro n hn
    rw [unity_maxre N n (Finset.mem_range.1 hn), ← hS, div_pow, div_pow]
    field_simp
  rw [Finset.sum_congr rfl h3, ← Finset.sum_div, haw2]
  unfold allrap2Energy
  have hD := re_weighted_pos N (fun n => 2 * (n : ℝ) + 2) (fun n => by positivity)
  have := pi_ne_zero
  field_simp

/-- Energy of a matrix product with a design. -/
theorem design_energy {J N t : ℕ} {azi zen : Fin J → ℝ} (hd : IsTDesign t azi zen) (ht : 2 * N ≤ t) (v : Fin ((N + 1) ^ 2) → ℝ) :
    ∑ j, (∑ q, v q * shMat N azi zen j q) ^ 2 = (J : ℝ) / (4 * π) * ∑ q, v q ^ 2 := by
  have h := design_gram hd ht
  have e : ∑ j, (∑ q, v q * shMat N azi zen j q) ^ 2
      = v ⬝ᵥ ((shMat N azi zen).transpose * shMat N azi zen).mulVec v := by
    rw [← Matrix.mulVec_mulVec, Matrix.dotProduct_mulVec, Matrix.vecMul_transpose]
    unfold dotProduct
    refine Finset.sum_congr rfl fun j _ => ?_
    rw [sq]
    unfold Matrix.mulVec dotProduct
    simp only [mul_comm]
  rw [e, h, Matrix.smul_mulVec, Matrix.one_mulVec, dotProduct_smul, smul_eq_mul]
  unfold dotProduct
  simp only [sq]

theorem npNorm_two_one {n : ℕ} {g : Fin n → ℝ} (h : npNorm 2 g = 1) : ∑ l, g l ^ 2 = 1 := by
  unfold npNorm at h
  have h0 : 0 ≤ ∑ i, |g i| ^ (2 : ℝ) := Finset.sum_nonneg fun i _ => Real.rpow_nonneg (abs_nonneg _) _
  have h2 : (((∑ i, |g i| ^ (2 : ℝ)) ^ (1 / (2 : ℝ))) ^ (2 : ℝ)) = 1 := by rw [h]; simp
  rw [← Real.rpow_mul h0] at h2
  norm_num at h2
  exact h2

theorem allrap2_eq {L n : ℕ} (lstsq : Mat3 → Mat3) (src : Fin n → Vec3) {s : Setup L} {am : Ambi L} {k : Kernel} (ha : s.ambi = some am)
    (hk : s.kernel = some k) {No : Option ℕ} {N : ℕ} (hN : OrderOf s No N) :
    allrap2 lstsq src No s = ((kernelGains lstsq am k).1.map fun Gk i => (realIdx am).map fun l =>
      √(4 * π / k.J * ∑ j, (shAt N (fun i => normalizeSrc (src i)) * Matrix.diagonal (taper2 N) * (shAt N k.points).transpose) i j ^ 2
        * Gk j l ^ 2), { s with ambi := some (kernelGains lstsq am k).2 }) := by
  unfold allrap2
  rw [prologue_ok ha hk hN]

theorem realIdx_nodup {L : ℕ} (am : Ambi L) : (realIdx am).Nodup := by
  unfold realIdx
  rcases am.imaginary with _ | idx
  · exact List.nodup_finRange _
  · exact (List.nodup_finRange _).filter _

/-- A call for several sources computes, for each source, what the call for that source alone computes. -/
theorem vbapHull_each {L : ℕ} (lstsq : Mat3 → Mat3) (h : Hull L) (hc : CacheOk lstsq h)
    (hinj : ∀ f ∈ h.valid, Function.Injective f) (src : List Vec3) :
    ∃ rows, (vbapHull lstsq 2 src none h).1 = .ok rows ∧ rows.length = src.length ∧
      ∀ (i : ℕ) (s : Vec3) (row : Fin L → ℝ), src[i]? = some s → rows[i]? = some row → (vbapHull lstsq 2 [s] none h).1 = .ok [row] := by
  have hrow : ∀ s : Vec3, ∃ g, vbapRow h.valid (invertTriplets lstsq h.valid h.points) 2 s = .ok g := by
    intro s
    rcases row_cases lstsq (p := 2) (by norm_num) h.points h.valid hinj s with ⟨h1, _⟩ | ⟨k, f, g, hf, h1, _⟩
    · exact ⟨0, h1⟩
    · exact ⟨g, h1⟩
  obtain ⟨ys, h1, h2, h3⟩ := Decoder.mapM_ok (vbapRow h.valid (invertTriplets lstsq h.valid h.points) 2) src fun s _ => hrow s
  refine ⟨ys.map fun r l => h.d l ^ h.a * r l, ?_, by simp [h2], ?_⟩
  · unfold vbapHull vbapSerial
    simp only [Option.getD_none, vbase_ok hc, h1]
    rfl
  · intro i s row hs hr
    rw [List.getElem?_map, Option.map_eq_some_iff] at hr
    obtain ⟨g, hg, rfl⟩ := hr
    have := h3 i s g hs hg
    unfold vbapHull vbapSerial
    simp only [Option.getD_none, vbase_ok hc, List.mapM_cons, List.mapM_nil, this]
    rfl

/-- C102: on a layout whose loudspeakers are at unit distance, where VBAP finds a simplex for every kernel direction and the kernel is a
spherical design of degree `2N`, the gains of `allrap2` have the same energy for every source: at most `allrap2Energy N`, and exactly
that if there is no imaginary loudspeaker. -/
theorem C102_energy {L n t : ℕ} (lstsq : Mat3 → Mat3) (hl : LstsqSpec lstsq) (src : Fin n → Vec3) (s : Setup L) (am : Ambi L) (k : Kernel)
    (ha : s.ambi = some am) (hk : s.kernel = some k) (No : Option ℕ) (N : ℕ) (hN : OrderOf s No N) (hc : CacheOk lstsq am.hull)
    (hinj : ∀ f ∈ am.hull.valid, Function.Injective f) (hd : ∀ l ∈ realIdx am, am.hull.d l = 1)
    (hdes : IsTDesign t (fun j => (dirOf (k.points j)).1) fun j => (dirOf (k.points j)).2) (ht : 2 * N ≤ t)
    (hfound : ∀ j, ∃ row, (vbapHull lstsq 2 [k.points j] none am.hull).1 = .ok [row] ∧ row ≠ 0) :
    ∃ G, (allrap2 lstsq src No s).1 = .ok G ∧ ∀ i, (∀ x ∈ G i, 0 ≤ x) ∧ ((G i).map (· ^ 2)).sum ≤ allrap2Energy N ∧
      (am.imaginary = none → ((G i).map (· ^ 2)).sum = allrap2Energy N) := by
  obtain ⟨rows, hr1, hr2, hr3⟩ := vbapHull_each lstsq am.hull hc hinj (List.ofFn k.points)
  have hgk : (kernelGains lstsq am k).1 = .ok fun j l => (rows.getD j 0) l := by
    unfold kernelGains
    dsimp only
    rw [hr1]; rfl
  set Gk : Matrix (Fin k.J) (Fin (L + am.M)) ℝ := fun j l => (rows.getD j 0) l with hGk
  have hE : ∀ j, ∃ g : Fin (L + am.M) → ℝ, ∑ l, g l ^ 2 = 1 ∧ ∀ l ∈ realIdx am, Gk j l = g l := by
    intro j
    have hj : (j : ℕ) < rows.length := by rw [hr2]; simp
    have hs : (List.ofFn k.points)[(j : ℕ)]? = some (k.points j) := by simp
    have hone := hr3 j (k.points j) rows[(j : ℕ)] hs (List.getElem?_eq_getElem hj)
    obtain ⟨row, h1, h2⟩ := hfound j
    rw [hone] at h1
    have hrow : rows[(j : ℕ)] = row := by
      have := Except.ok.inj h1
      exact List.head_eq_of_cons_eq this
    obtain ⟨rows', h3, _, h5⟩ := C29_vbap lstsq hl (p := 2) (by norm_num) am.hull hc hinj [k.points j]
    rw [hone] at h3
    have h3' := Except.ok.inj h3
    obtain ⟨g, hg, hcase⟩ := h5 0 (k.points j) row rfl (by rw [← h3', hrow]; rfl)
    rcases hcase with rfl | ⟨f, hf, hR⟩
    · exact absurd (by rw [hg]; funext l; simp) h2
    · refine ⟨g, npNorm_two_one hR.norm, fun l hl' => ?_⟩
      have : Gk j l = row l := by
        rw [hGk]
        simp only [List.getD_eq_getElem?_getD, List.getElem?_eq_getElem hj, Option.getD_some, hrow]
      rw [this, hg]
      simp [hd l hl']
  have hJ : (0 : ℝ) < k.J := by exact_mod_cast hdes.pos
  have hsum : ∀ i, ∑ j, (shAt N (fun i => normalizeSrc (src i)) * Matrix.diagonal (taper2 N) * (shAt N k.points).transpose) i j ^ 2
      = (k.J : ℝ) / (4 * π) * allrap2Energy N := by
    intro i
    have h1 := design_energy hdes ht fun q => shAt N (fun i => normalizeSrc (src i)) i q * taper2 N q
    have h2 := taper2_energy N (dirOf (normalizeSrc (src i))).1 (dirOf (normalizeSrc (src i))).2 (dirOf_zenith _)
    rw [show (∑ q, (shAt N (fun i => normalizeSrc (src i)) i q * taper2 N q) ^ 2) = allrap2Energy N from h2] at h1
    rw [← h1]
    refine Finset.sum_congr rfl fun j _ => ?_
    rw [Matrix.mul_apply]
    simp only [Matrix.mul_diagonal]
    rfl
  rw [allrap2_eq lstsq src ha hk hN, hgk]
  refine ⟨_, rfl, fun i => ⟨fun x hx => ?_, ?_⟩⟩
  · obtain ⟨l, _, rfl⟩ := List.mem_map.1 hx
    exact Real.sqrt_nonneg _
  set B := (shAt N (fun i => normalizeSrc (src i)) * Matrix.diagonal (taper2 N) * (shAt N k.points).transpose) i with hB
  have hsq : (((realIdx am).map fun l => √(4 * π / k.J * ∑ j, B j ^ 2 * Gk j l ^ 2)).map (· ^ 2)).sum
      = 4 * π / k.J * ∑ j, B j ^ 2 * ∑ l ∈ (realIdx am).toFinset, Gk j l ^ 2 := by
    rw [List.map_map, ← List.sum_toFinset _ (realIdx_nodup am)]
    have : ∀ l ∈ (realIdx am).toFinset, ((· ^ 2) ∘ fun l => √(4 * π / k.J * ∑ j, B j ^ 2 * Gk j l ^ 2)) l
        = ∑ j, 4 * π / k.J * (B j ^ 2 * Gk j l ^ 2) := by
      intro l _
      show (√_) ^ 2 = _
      rw [Real.sq_sqrt (mul_nonneg (by positivity) (Finset.sum_nonneg fun j _ => by positivity)), Finset.mul_sum]
    rw [Finset.sum_congr rfl this, Finset.sum_comm, Finset.mul_sum]
    refine Finset.sum_congr rfl fun j _ => ?_
    rw [Finset.mul_sum, Finset.mul_sum]
  have hle : ∀ j, ∑ l ∈ (realIdx am).toFinset, Gk j l ^ 2 ≤ 1 ∧ (am.imaginary = none → ∑ l ∈ (realIdx am).toFinset, Gk j l ^ 2 = 1) := by
    intro j
    obtain ⟨g, hg1, hg2⟩ := hE j
    have e : ∑ l ∈ (realIdx am).toFinset, Gk j l ^ 2 = ∑ l ∈ (realIdx am).toFinset, g l ^ 2 :=
      Finset.sum_congr rfl fun l hl' => by rw [hg2 l (List.mem_toFinset.1 hl')]
    rw [e]
    refine ⟨?_, fun hi => ?_⟩
    · rw [← hg1]
      exact Finset.sum_le_sum_of_subset_of_nonneg (Finset.subset_univ _) fun _ _ _ => sq_nonneg _
    · have : (realIdx am).toFinset = Finset.univ := by
        ext l
        unfold realIdx
        rw [hi]
        simp
      rw [this, hg1]
  have hconst : 4 * π / k.J * ∑ j, B j ^ 2 = allrap2Energy N := by
    rw [hB, hsum i]
    have := pi_ne_zero
    field_simp
  show (((realIdx am).map fun l => √(4 * π / k.J * ∑ j, B j ^ 2 * Gk j l ^ 2)).map (· ^ 2)).sum ≤ _ ∧
    (_ → (((realIdx am).map fun l => √(4 * π / k.J * ∑ j, B j ^ 2 * Gk j l ^ 2)).map (· ^ 2)).sum = _)
  rw [hsq]
  constructor
  · rw [← hconst]
    refine mul_le_mul_of_nonneg_left (Finset.sum_le_sum fun j _ => ?_) (by positivity)
    exact mul_le_of_le_one_right (sq_nonneg _) (hle j).1
  · intro hi
    rw [← hconst]
    congr 1
    exact Finset.sum_congr rfl fun j _ => by rw [(hle j).2 hi, mul_one]

/-- C102: that energy is at least one half but always less than one: the normalisation announced in the documentation is missed. -/
theorem C102_not_unit (N : ℕ) : 1 / 2 ≤ allrap2Energy N ∧ allrap2Energy N < 1 := by
  have hD := re_weighted_pos N (fun n => 2 * (n : ℝ) + 2) (fun n => by positivity)
  have h1 := re_weighted_pos N (fun _ => 1) (fun n => by positivity)
  have e : ∑ n ∈ Finset.range (N + 1), (2 * (n : ℝ) + 2) * reLegendre N n ^ 2
      = ∑ n ∈ Finset.range (N + 1), (2 * (n : ℝ) + 1) * reLegendre N n ^ 2 + ∑ n ∈ Finset.range (N + 1), 1 * reLegendre N n ^ 2 := by
    rw [← Finset.sum_add_distrib]
    exact Finset.sum_congr rfl fun n _ => by ring
  have h2 : ∑ n ∈ Finset.range (N + 1), 1 * reLegendre N n ^ 2 ≤ ∑ n ∈ Finset.range (N + 1), (2 * (n : ℝ) + 1) * reLegendre N n ^ 2 :=
    Finset.sum_le_sum fun n _ => by
      have : (0 : ℝ) ≤ n := Nat.cast_nonneg n
      have := sq_nonneg (reLegendre N n)
      nlinarith
  unfold allrap2Energy
  rw [div_lt_one hD, le_div_iff₀ hD]
  constructor <;> linarith

/-- Every direction lies in the cone of a face of the octahedron. -/
theorem oct_cone (s : Vec3) : ∃ f ∈ Oct.faces, ∃ c : Vec3, (∀ i, 0 ≤ c i) ∧ ∑ i, c i • Oct.pts (f i) = s := by
  have key : ∀ f ∈ Oct.faces, ∀ c : Vec3, (∀ i, 0 ≤ c i) → (∑ i, c i • Oct.pts (f i) = s) →
      ∃ f ∈ Oct.faces, ∃ c : Vec3, (∀ i, 0 ≤ c i) ∧ ∑ i, c i • Oct.pts (f i) = s := fun f hf c h1 h2 => ⟨f, hf, c, h1, h2⟩
  rcases le_total 0 (s 0) with hx | hx <;> rcases le_total 0 (s 1) with hy | hy <;> rcases le_total 0 (s 2) with hz | hz
  · exact key ![0, 2, 4] (by simp [Oct.faces]) ![s 0, s 1, s 2] (by intro i; fin_cases i <;> simpa) (by
      funext c; rw [Fin.sum_univ_three]; fin_cases c <;> simp [Oct.pts])
  · exact key ![0, 2, 5] (by simp [Oct.faces]) ![s 0, s 1, -s 2] (by intro i; fin_cases i <;> simpa) (by
      funext c; rw [Fin.sum_univ_three]; fin_cases c <;> simp [Oct.pts])
  · exact key ![0, 3, 4] (by simp [Oct.faces]) ![s 0, -s 1, s 2] (by intro i; fin_cases i <;> simpa) (by
      funext c; rw [Fin.sum_univ_three]; fin_cases c <;> simp [Oct.pts])
  · exact key ![0, 3, 5] (by simp [Oct.faces]) ![s 0, -s 1, -s 2] (by intro i; fin_cases i <;> simpa) (by
      funext c; rw [Fin.sum_univ_three]; fin_cases c <;> simp [Oct.pts])
  · exact key ![1, 2, 4] (by simp [Oct.faces]) ![-s 0, s 1, s 2] (by intro i; fin_cases i <;> simpa) (by
      funext c; rw [Fin.sum_univ_three]; fin_cases c <;> simp [Oct.pts])
  · exact key ![1, 2, 5] (by simp [Oct.faces]) ![-s 0, s 1, -s 2] (by intro i; fin_cases i <;> simpa) (by
      funext c; rw [Fin.sum_univ_three]; fin_cases c <;> simp [Oct.pts])
  · exact key ![1, 3, 4] (by simp [Oct.faces]) ![-s 0, -s 1, s 2] (by intro i; fin_cases i <;> simpa) (by
      funext c; rw [Fin.sum_univ_three]; fin_cases c <;> simp [Oct.pts])
  · exact key ![1, 3, 5] (by simp [Oct.faces]) ![-s 0, -s 1, -s 2] (by intro i; fin_cases i <;> simpa) (by
      funext c; rw [Fin.sum_univ_three]; fin_cases c <;> simp [Oct.pts])

/-- C102 on the octahedron with the cube as kernel, order 1: the energy is the same for any two sources. -/
example : ∃ (lstsq : Mat3 → Mat3) (s : Setup 6), ∀ src : Fin 2 → Vec3, ∃ G, (allrap2 lstsq src (some 1) s).1 = .ok G ∧
    ∀ i, ((G i).map (· ^ 2)).sum = allrap2Energy 1 := by
  obtain ⟨lstsq, hl⟩ := exists_lstsq3
  obtain ⟨azi, zen, hd⟩ := cube_design
  refine ⟨lstsq, ⟨Oct.hull, some ⟨0, Oct.hull, none⟩, some ⟨8, fun l => dirVec (azi l) (zen l), 1⟩⟩, fun src => ?_⟩
  obtain ⟨G, h1, h2⟩ := C102_energy (L := 6) (t := 3) lstsq hl src
    ⟨Oct.hull, some ⟨0, Oct.hull, none⟩, some ⟨8, fun l => dirVec (azi l) (zen l), 1⟩⟩ ⟨0, Oct.hull, none⟩
    ⟨8, fun l => dirVec (azi l) (zen l), 1⟩ rfl rfl (some 1) 1 (.inl rfl) (oct_cache lstsq) Oct.inj (fun _ _ => rfl) (design_points hd)
    (by norm_num) (fun j => by
      obtain ⟨f, hf, c, hc1, hc2⟩ := oct_cone (dirVec (azi j) (zen j))
      refine C30_cone lstsq hl (p := 2) (by norm_num) Oct.hull (oct_cache lstsq) Oct.inj Oct.li (fun l => (Oct.norm_pts l).symm)
        (dirVec (azi j) (zen j)) (fun h0 => ?_) f hf c hc1 hc2
      have := norm3_dirVec (azi j) (zen j)
      rw [h0] at this
      simp [norm3] at this)
  exact ⟨G, h1, fun i => (h2 i).2.2 rfl⟩

end Verif.Props
