import Mathlib.Tactic
import Verif.Proofs.Conv
import Verif.Props.Angles
import Verif.Props.AmbiDecoders
import Verif.Props.MultiSignal
import Verif.Props.SignalConv

/-! C51, C52: nearest HRIR selection and consistency of HRIR sets. -/

namespace Verif.Sig

open Verif.Utils Real InnerProductGeometry

/-! ### C51 -/

/-- Grid index `i` is the first of those with the smallest haversine distance to the direction `(a, z)`. -/
def IsNearest (azi zen : List ℝ) (a z : ℝ) (i : ℕ) : Prop :=
  ∃ (ga gz : ℝ), azi[i]? = some ga ∧ zen[i]? = some gz ∧
    ∀ (j : ℕ) (a' z' : ℝ), azi[j]? = some a' → zen[j]? = some z' →
      haversine a z ga gz ≤ haversine a z a' z' ∧ (j < i → haversine a z ga gz < haversine a z a' z')

theorem dot3_eq_cos (a z a' z' : ℝ) : dot3 (sph2cart a z) (sph2cart a' z') = cos (haversine a z a' z') := by
  rw [C03_haversine_eq_angle, one_mul, cos_angle, norm_unitVec, norm_unitVec, inner_unitVec]
  simp only [dot3, sph2cart]
  rw [cos_sub]
  ring

theorem haversine_mem (a z a' z' : ℝ) : haversine a z a' z' ∈ Set.Icc 0 π := (C03_metric a z a' z' a z).1

theorem nearestOne_spec (h : HRIRs) (a z : ℝ) (hz : h.azi.length = h.zen.length) (hne : h.azi ≠ []) :
    ∃ i, h.nearestOne a z = .ok i ∧ IsNearest h.azi h.zen a z i := by
  have hpos := List.length_pos_iff.2 hne
  set F : ℝ → ℝ → ℝ := fun ga gz => dot3 (sph2cart a z) (sph2cart ga gz) with hF
  have hlen : (List.zipWith F h.azi h.zen).length = h.azi.length := by simp [hz]
  obtain ⟨i, v, h1, h2, h3, h4⟩ := Props.npArgmax_spec (List.zipWith F h.azi h.zen) (fun h0 => by rw [h0] at hlen; simp at hlen; omega)
  refine ⟨i, h1, ?_⟩
  rw [List.getElem?_zipWith] at h2
  rcases e1 : h.azi[i]? with _ | ga
  · rw [e1] at h2; cases h2
  rcases e2 : h.zen[i]? with _ | gz
  · rw [e1, e2] at h2; cases h2
  rw [e1, e2] at h2
  have hv : F ga gz = v := by simpa using h2
  refine ⟨ga, gz, e1, e2, fun j a' z' g1 g2 => ?_⟩
  have hj : (List.zipWith F h.azi h.zen)[j]? = some (F a' z') := by rw [List.getElem?_zipWith, g1, g2]
  have hle := h3 _ (List.mem_of_getElem? hj)
  rw [← hv] at hle
  refine ⟨?_, fun hji => ?_⟩
  · by_contra hc
    have := cos_lt_cos_of_nonneg_of_le_pi (haversine_mem a z a' z').1 (haversine_mem a z ga gz).2 (not_le.1 hc)
    rw [← dot3_eq_cos, ← dot3_eq_cos] at this
    exact absurd hle (not_le.2 this)
  · have hlt := h4 j _ hji hj
    rw [← hv] at hlt
    by_contra hc
    have := cos_le_cos_of_nonneg_of_le_pi (haversine_mem a z a' z').1 (haversine_mem a z ga gz).2 (not_lt.1 hc)
    rw [← dot3_eq_cos, ← dot3_eq_cos] at this
    exact absurd hlt (not_lt.2 this)

/-- The set of directions of `h` is a grid: as many zeniths as azimuths, at least one, and a left and right response for each. -/
def HRIRs.Grid (h : HRIRs) : Prop :=
  h.azi.length = h.zen.length ∧ h.azi ≠ [] ∧ h.left.rows.length = h.azi.length ∧ h.right.rows.length = h.azi.length

/-- **C51** For one direction, given as a scalar, `nearest_idx` is the first grid index with the smallest haversine distance. -/
theorem C51_scalar (h : HRIRs) (hg : h.Grid) (a z : ℝ) : ∃ i, h.nearestIdx ⟨[], [a]⟩ ⟨[], [z]⟩ = .ok ⟨[], [i]⟩ ∧ IsNearest h.azi h.zen a z i := by
  obtain ⟨i, h1, h2⟩ := nearestOne_spec h a z hg.1 hg.2.1
  refine ⟨i, ?_, h2⟩
  simp [HRIRs.nearestIdx, asarray1d, NDArray.squeeze, Except.bind, pairDirs, List.mapM_cons, h1, bind, pure, Except.pure, Except.map]

/-- **C51** For two or more directions in arrays of equal length `nearest_idx` is the array of the nearest indices. -/
theorem C51_array (h : HRIRs) (hg : h.Grid) (azi zen : List ℝ) (hl : azi.length = zen.length) (h2 : 2 ≤ azi.length) :
    ∃ is : List ℕ, h.nearestIdx ⟨[azi.length], azi⟩ ⟨[zen.length], zen⟩ = .ok ⟨[azi.length], is⟩ ∧ is.length = azi.length ∧
      ∀ (k : ℕ) (a z : ℝ) (i : ℕ), azi[k]? = some a → zen[k]? = some z → is[k]? = some i → IsNearest h.azi h.zen a z i := by
  obtain ⟨is, m1, m2, m3⟩ := Decoder.mapM_ok (fun d : ℝ × ℝ => h.nearestOne d.1 d.2) (azi.zip zen) fun d _ => by
    obtain ⟨i, h1, -⟩ := nearestOne_spec h d.1 d.2 hg.1 hg.2.1
    exact ⟨i, h1⟩
  have m2' : is.length = azi.length := by rw [m2]; simp [hl]
  refine ⟨is, ?_, m2', ?_⟩
  · have e1 : azi.length ≠ 1 := by omega
    have e2 : zen.length ≠ 1 := by omega
    have p1 : asarray1d ⟨[azi.length], azi⟩ = .ok ⟨[azi.length], azi⟩ := by simp [asarray1d, NDArray.squeeze, e1]
    have p2 : asarray1d ⟨[zen.length], zen⟩ = .ok ⟨[zen.length], zen⟩ := by simp [asarray1d, NDArray.squeeze, e2]
    have p3 : pairDirs azi zen = .ok (azi.zip zen) := by unfold pairDirs; rw [if_pos hl]
    rw [HRIRs.nearestIdx, p1]
    change (asarray1d _).bind _ = _
    rw [p2]
    change (pairDirs azi zen).bind _ = _
    rw [p3]
    change Except.map _ (List.mapM _ _) = _
    rw [m1]
    simp [Except.map, NDArray.squeeze, m2', e1]
  · intro k a z i g1 g2 g3
    have g : (azi.zip zen)[k]? = some (a, z) := by
      rw [List.getElem?_zip_eq_some]; exact ⟨g1, g2⟩
    have := m3 k (a, z) i g g3
    obtain ⟨j, h1, hn⟩ := nearestOne_spec h a z hg.1 hg.2.1
    rw [h1] at this
    cases this
    exact hn

/-- **C51** `nearest_hrirs` returns the rows of both ears at that index. -/
theorem C51_rows (h : HRIRs) (hg : h.Grid) (a z : ℝ) : ∃ i l r, h.nearestHrirs a z = .ok (l, r) ∧ IsNearest h.azi h.zen a z i ∧
    h.left.rows[i]? = some l ∧ h.right.rows[i]? = some r := by
  obtain ⟨i, h1, h2⟩ := nearestOne_spec h a z hg.1 hg.2.1
  have hi : i < h.azi.length := by
    obtain ⟨ga, gz, e1, -⟩ := h2
    exact (List.getElem?_eq_some_iff.1 e1).1
  have l1 : i < h.left.rows.length := by rw [hg.2.2.1]; exact hi
  have l2 : i < h.right.rows.length := by rw [hg.2.2.2]; exact hi
  refine ⟨i, h.left.rows[i], h.right.rows[i], ?_, h2, List.getElem?_eq_getElem l1, List.getElem?_eq_getElem l2⟩
  simp [HRIRs.nearestHrirs, h1, Except.bind, HRIRs.getItem, List.getElem?_eq_getElem l1, List.getElem?_eq_getElem l2]

/-- **C51** A direction on the grid selects a grid point at distance zero, i.e. the same point of the sphere. -/
theorem C51_on_grid (h : HRIRs) (hg : h.Grid) (k : ℕ) (a z : ℝ) (ha : h.azi[k]? = some a) (hz : h.zen[k]? = some z) :
    ∃ i ga gz, h.nearestIdx ⟨[], [a]⟩ ⟨[], [z]⟩ = .ok ⟨[], [i]⟩ ∧ i ≤ k ∧ h.azi[i]? = some ga ∧ h.zen[i]? = some gz ∧
      haversine a z ga gz = 0 ∧ dir2cart a z = dir2cart ga gz := by
  obtain ⟨i, h1, ga, gz, e1, e2, hn⟩ := C51_scalar h hg a z
  have hself : haversine a z a z = 0 := (C03_metric a z a z a z).2.2.2.2 rfl
  have h0 : haversine a z ga gz = 0 := le_antisymm (by rw [← hself]; exact (hn k a z ha hz).1) (haversine_mem a z ga gz).1
  refine ⟨i, ga, gz, h1, ?_, e1, e2, h0, (C03_metric a z ga gz a z).2.2.2.1 h0⟩
  by_contra hc
  have := (hn k a z ha hz).2 (by omega)
  rw [h0, hself] at this
  exact lt_irrefl _ this

/-- **C51** An empty grid and arrays of directions that cannot be paired raise `ValueError`. -/
theorem C51_reject (h : HRIRs) (azi zen : List ℝ) (h2 : 2 ≤ azi.length) (hl : azi.length ≠ zen.length) (hz : zen ≠ []) :
    h.nearestIdx ⟨[azi.length], azi⟩ ⟨[zen.length], zen⟩ = .error .valueError := by
  have e1 : azi.length ≠ 1 := by omega
  have hp : pairDirs azi zen = .error .valueError := by
    unfold pairDirs
    rw [if_neg hl]
    match azi, h2 with
    | a :: b :: l, _ => rfl
  have q : ∃ a, asarray1d ⟨[zen.length], zen⟩ = .ok a ∧ a.data = zen := by
    by_cases hz1 : zen.length = 1
    · exact ⟨⟨[1], zen⟩, by simp [asarray1d, NDArray.squeeze, hz1], rfl⟩
    · exact ⟨⟨[zen.length], zen⟩, by simp [asarray1d, NDArray.squeeze, hz1], rfl⟩
  obtain ⟨q, hq, hqd⟩ := q
  have p : asarray1d ⟨[azi.length], azi⟩ = .ok ⟨[azi.length], azi⟩ := by simp [asarray1d, NDArray.squeeze, e1]
  rw [HRIRs.nearestIdx, p]
  change (asarray1d _).bind _ = _
  rw [hq]
  change (pairDirs azi q.data).bind _ = _
  rw [hqd, hp]
  rfl

/-- A set of two directions, front and left, with two taps. -/
noncomputable def twoHrirs : HRIRs where
  left := { cols := 2, rows := [[1, 0], [0.5, 0]] }
  right := { cols := 2, rows := [[1, 0], [0, 0.25]] }
  azi := [0, π / 2]
  zen := [π / 2, π / 2]
  fs := 48000
  numGrid := 2
  numSamples := 2

theorem twoHrirs_grid : twoHrirs.Grid := ⟨rfl, by simp [twoHrirs], rfl, rfl⟩

/-- `C51_scalar` and `C51_rows` on this set. -/
example : ∃ i, twoHrirs.nearestIdx ⟨[], [1]⟩ ⟨[], [1]⟩ = .ok ⟨[], [i]⟩ ∧ IsNearest twoHrirs.azi twoHrirs.zen 1 1 i := C51_scalar twoHrirs twoHrirs_grid 1 1

example : ∃ i l r, twoHrirs.nearestHrirs 1 1 = .ok (l, r) ∧ IsNearest twoHrirs.azi twoHrirs.zen 1 1 i ∧ twoHrirs.left.rows[i]? = some l ∧
    twoHrirs.right.rows[i]? = some r := C51_rows twoHrirs twoHrirs_grid 1 1

example : ∃ i ga gz, twoHrirs.nearestIdx ⟨[], [π / 2]⟩ ⟨[], [π / 2]⟩ = .ok ⟨[], [i]⟩ ∧ i ≤ 1 ∧ twoHrirs.azi[i]? = some ga ∧ twoHrirs.zen[i]? = some gz ∧
    haversine (π / 2) (π / 2) ga gz = 0 ∧ dir2cart (π / 2) (π / 2) = dir2cart ga gz :=
  C51_on_grid twoHrirs twoHrirs_grid 1 _ _ rfl rfl

example : ∃ is : List ℕ, twoHrirs.nearestIdx ⟨[3], [0, 1, 2]⟩ ⟨[3], [1, 1, 1]⟩ = .ok ⟨[3], is⟩ ∧ is.length = 3 := by
  obtain ⟨is, h1, h2, -⟩ := C51_array twoHrirs twoHrirs_grid [0, 1, 2] [1, 1, 1] rfl (by simp)
  exact ⟨is, h1, h2⟩

example : twoHrirs.nearestIdx ⟨[3], [0, 1, 2]⟩ ⟨[2], [1, 1]⟩ = .error .valueError := C51_reject twoHrirs [0, 1, 2] [1, 1] (by simp) (by simp) (by simp)

/-! ### C52 -/

/-- A consistent set: one left and one right response per direction, the same number of taps for both ears, and `num_samples` is that number. -/
def HRIRs.Consistent (h : HRIRs) : Prop :=
  h.azi.length = h.numGrid ∧ h.zen.length = h.numGrid ∧ h.left.rows.length = h.numGrid ∧ h.right.rows.length = h.numGrid ∧
    h.left.WF ∧ h.right.WF ∧ h.left.cols = h.numSamples ∧ h.right.cols = h.numSamples

theorem ofND_spec (r c : ℕ) (data : List ℝ) (hd : data.length = r * c) : (Arr2.ofND r c data).WF ∧ (Arr2.ofND r c data).rows.length = r := by
  refine ⟨fun q hq => ?_, by simp [Arr2.ofND]⟩
  simp only [Arr2.ofND, List.mem_map, List.mem_range] at hq ⊢
  obtain ⟨i, hi, rfl⟩ := hq
  simp only [List.length_take, List.length_drop, hd]
  have : (i + 1) * c ≤ r * c := Nat.mul_le_mul_right c hi
  rw [Nat.succ_mul] at this
  omega

theorem asarray1d_data {a b : NDArray ℝ} (h : asarray1d a = .ok b) : b.data = a.data := by
  unfold asarray1d at h
  simp only at h
  by_cases h1 : a.squeeze.shape.length = 0
  · rw [if_pos h1] at h; cases h; rfl
  · rw [if_neg h1] at h
    by_cases h2 : a.squeeze.shape.length > 1
    · rw [if_pos h2] at h; cases h
    · rw [if_neg h2] at h; cases h; rfl

/-- The attributes of every constructed set, with the tap counts of the two ears as given. -/
theorem init_spec (left right azi zen : NDArray ℝ) (fs : ℝ) (h : HRIRs) (hl : left.WF) (hr : right.WF) (hi : HRIRs.init left right azi zen fs = .ok h) :
    ∃ n cl cr, left.shape = [n, cl] ∧ right.shape = [n, cr] ∧ h.left.cols = cl ∧ h.right.cols = cr ∧ h.numSamples = cl ∧ h.numGrid = n ∧
      h.azi.length = n ∧ h.zen.length = n ∧ h.left.rows.length = n ∧ h.right.rows.length = n ∧ h.left.WF ∧ h.right.WF ∧ h.azi = azi.data ∧ h.zen = zen.data ∧ h.fs = fs := by
  unfold HRIRs.init at hi
  split at hi
  · cases hi
  · cases hi
  · rename_i l ls r rs e1 e2
    split at hi
    · cases hi
    · rename_i hlr
      have hlr : l = r := not_not.1 hlr
      split at hi
      · rename_i cl cr
        subst hlr
        have wl := ofND_spec l cl left.data (by have := hl; rw [NDArray.WF, e1] at this; simpa using this)
        have wr := ofND_spec l cr right.data (by have := hr; rw [NDArray.WF, e2] at this; simpa using this)
        rw [HRIRs.finish] at hi
        rcases ha : asarray1d azi with e | azi'
        · rw [ha] at hi; cases hi
        rw [ha] at hi
        rcases hz : asarray1d zen with e | zen'
        · rw [hz] at hi; cases hi
        rw [hz] at hi
        have d1 := asarray1d_data ha
        have d2 := asarray1d_data hz
        simp only [Except.bind] at hi
        split at hi
        · cases hi
        · split at hi
          · cases hi
          · rename_i c1 c2
            cases hi
            simp only [ne_eq, not_not] at c1 c2
            refine ⟨l, cl, cr, e1, e2, rfl, rfl, rfl, ?_, ?_, ?_, wl.2, wr.2, wl.1, wr.1, d1, d2, rfl⟩
            · rw [c2, wl.2]
            · rw [c2, wl.2]
            · rw [← c1, c2, wl.2]
      · cases hi

/-- **C52** (partial) Every constructed set has one left and one right response per direction and `num_samples` taps at the left ear; it is consistent exactly
when the two arrays were given with equally many taps. Missing: the constructor does not reject different tap counts, see `C52_constructor_fails`. -/
theorem C52_init_partial (left right azi zen : NDArray ℝ) (fs : ℝ) (h : HRIRs) (hl : left.WF) (hr : right.WF) (hi : HRIRs.init left right azi zen fs = .ok h) :
    h.left.rows.length = h.azi.length ∧ h.right.rows.length = h.azi.length ∧ h.zen.length = h.azi.length ∧ h.numGrid = h.azi.length ∧ h.left.cols = h.numSamples ∧
      (h.Consistent ↔ left.shape = right.shape) := by
  obtain ⟨n, cl, cr, e1, e2, e3, e4, e5, e6, e7, e8, e9, e10, w1, w2, -⟩ := init_spec left right azi zen fs h hl hr hi
  refine ⟨by omega, by omega, by omega, by omega, by omega, ?_⟩
  rw [e1, e2]
  constructor
  · rintro ⟨-, -, -, -, -, -, -, h8⟩
    rw [show cl = cr by omega]
  · intro hs
    simp only [List.cons.injEq, and_true, true_and] at hs
    exact ⟨by omega, by omega, by omega, by omega, w1, w2, by omega, by omega⟩

/-- **C52** The constructor refuses, with `AssertionError`, ears with different numbers of directions and directions of another number, and nothing else. -/
theorem C52_reject (left right azi zen : NDArray ℝ) (fs : ℝ) (l r cl cr na nz : ℕ) (hl : left.WF) (el : left.shape = [l, cl]) (er : right.shape = [r, cr])
    (ha : azi.data.length = na) (hz : zen.data.length = nz) (hna : azi.shape = [na]) (hnz : zen.shape = [nz]) :
    (l = r ∧ na = l ∧ nz = l → ∃ h, HRIRs.init left right azi zen fs = .ok h) ∧
    (¬ (l = r ∧ na = l ∧ nz = l) → HRIRs.init left right azi zen fs = .error .assertionError) := by
  have a1 : ∀ (a : NDArray ℝ) (n : ℕ), a.shape = [n] → ∃ b, asarray1d a = .ok b := by
    intro a n h
    unfold asarray1d
    have : a.squeeze.shape.length ≤ 1 := by
      unfold NDArray.squeeze
      rw [h]
      by_cases h1 : n = 1 <;> simp [h1]
    by_cases h0 : a.squeeze.shape.length = 0
    · simp only [if_pos h0]; exact ⟨_, rfl⟩
    · simp only [if_neg h0, if_neg (not_lt.2 this)]; exact ⟨_, rfl⟩
  obtain ⟨a', ea⟩ := a1 azi na hna
  obtain ⟨z', ez⟩ := a1 zen nz hnz
  have da := asarray1d_data ea
  have dz := asarray1d_data ez
  have wl := ofND_spec l cl left.data (by have := hl; rw [NDArray.WF, el] at this; simpa using this)
  unfold HRIRs.init
  rw [el, er]
  simp only
  by_cases hlr : l = r
  · rw [if_neg (not_not.2 hlr)]
    unfold HRIRs.finish
    rw [ea, ez]
    simp only [Except.bind, da, dz, wl.2, ha, hz]
    by_cases h1 : na = nz
    · rw [if_neg (not_not.2 h1)]
      by_cases h2 : na = l
      · rw [if_neg (not_not.2 h2)]; exact ⟨fun _ => ⟨_, rfl⟩, fun h => absurd ⟨hlr, h2, h1.symm.trans h2⟩ h⟩
      · rw [if_pos h2]; exact ⟨fun h => absurd h.2.1 h2, fun _ => rfl⟩
    · rw [if_pos h1]; exact ⟨fun h => absurd (h.2.1.trans h.2.2.symm) h1, fun _ => rfl⟩
  · rw [if_pos hlr]; exact ⟨fun h => absurd h.1 hlr, fun _ => rfl⟩

/-- Two left and one right response. -/
example : HRIRs.init ⟨[2, 1], [1, 2]⟩ ⟨[1, 1], [1]⟩ ⟨[2], [0, 1]⟩ ⟨[2], [1, 1]⟩ 48000 = .error .assertionError :=
  (C52_reject ⟨[2, 1], [1, 2]⟩ ⟨[1, 1], [1]⟩ ⟨[2], [0, 1]⟩ ⟨[2], [1, 1]⟩ 48000 2 1 1 1 2 2 (by simp [NDArray.WF]) rfl rfl rfl rfl rfl rfl).2 (by norm_num)

/-- `C52_init_partial`: a set of two directions, two taps left and three right. -/
example : ∃ h, HRIRs.init ⟨[2, 2], [1, 2, 3, 4]⟩ ⟨[2, 3], [1, 2, 3, 4, 5, 6]⟩ ⟨[2], [0, 1]⟩ ⟨[2], [1, 1]⟩ 48000 = .ok h ∧ ¬ h.Consistent := by
  refine ⟨_, rfl, fun hc => ?_⟩
  have := (C52_init_partial ⟨[2, 2], [1, 2, 3, 4]⟩ ⟨[2, 3], [1, 2, 3, 4, 5, 6]⟩ ⟨[2], [0, 1]⟩ ⟨[2], [1, 1]⟩ 48000 _ rfl rfl rfl).2.2.2.2.2.1 hc
  simp at this

theorem twoInit : HRIRs.init ⟨[2, 2], [1, 0, 0.5, 0]⟩ ⟨[2, 2], [1, 0, 0, 0.25]⟩ ⟨[2], [0, π / 2]⟩ ⟨[2], [π / 2, π / 2]⟩ 48000 = .ok twoHrirs := by
  simp [HRIRs.init, HRIRs.finish, asarray1d, NDArray.squeeze, Except.bind, Arr2.ofND, twoHrirs, List.range_succ]

theorem twoHrirs_consistent : twoHrirs.Consistent :=
  (C52_init_partial _ _ _ _ _ _ (by simp [NDArray.WF]) (by simp [NDArray.WF]) twoInit).2.2.2.2.2.2 rfl

/-- **C52** (negative part) Different numbers of taps at the two ears are accepted, and `num_samples` is that of the left one. -/
theorem C52_constructor_fails : ∃ h, HRIRs.init ⟨[1, 3], [1, 2, 3]⟩ ⟨[1, 2], [1, 2]⟩ ⟨[1], [0]⟩ ⟨[1], [0]⟩ 48000 = .ok h ∧ ¬ h.Consistent := by
  refine ⟨{ left := Arr2.ofND 1 3 [1, 2, 3], right := Arr2.ofND 1 2 [1, 2], azi := [0], zen := [0], fs := 48000, numGrid := 1, numSamples := 3 }, ?_, ?_⟩
  · simp [HRIRs.init, HRIRs.finish, asarray1d, NDArray.squeeze, Except.bind, Arr2.ofND]
  · rintro ⟨-, -, -, -, -, -, -, h⟩
    simp [Arr2.ofND] at h

/-- An update of a set. -/
inductive HOp
  | update (left right : NDArray ℝ)
  | ctf (taps : List ℝ) (mode : ConvMode)

/-- The set after one call, exceptions caught. -/
noncomputable def HRIRs.call (h : HRIRs) : HOp → HRIRs
  | .update l r => (h.update l r).1
  | .ctf t m => (h.applyCtfEq t m).1

/-- `update_hrirs` gets arrays with as many taps for both ears. -/
def HOp.Fits : HOp → Prop
  | .update l r => l.WF ∧ r.WF ∧ l.shape = r.shape
  | .ctf _ _ => True

theorem convRows_spec {mode : ConvMode} {a b : Arr2} {t : List ℝ} (hw : a.WF) (h : convRows mode a t = .ok b) :
    b.WF ∧ b.rows.length = a.rows.length ∧ b.cols = convLen mode a.cols t.length := by
  unfold convRows at h
  split at h
  · cases h
  · rename_i hc
    split at h
    · cases h
    · cases h
      refine ⟨fun r hr => ?_, by simp, rfl⟩
      simp only [List.mem_map] at hr
      obtain ⟨q, hq, rfl⟩ := hr
      have hl := hw q hq
      simp only [not_or] at hc
      rw [convKeep_length mode q t (fun h0 => hc.2.1 (by rw [← hl, h0]; rfl)) hc.2.2, hl]

/-- **C52** (partial) A consistent set stays consistent, with the same directions, under every history of `update_hrirs` calls with equally many taps for both
ears and `apply_ctf_eq` calls with any filter and mode, rejected calls included. -/
theorem C52_history_partial (h : HRIRs) (hc : h.Consistent) (ops : List HOp) (hops : ∀ o ∈ ops, o.Fits) :
    (ops.foldl HRIRs.call h).Consistent ∧ (ops.foldl HRIRs.call h).azi = h.azi ∧ (ops.foldl HRIRs.call h).zen = h.zen ∧
      (ops.foldl HRIRs.call h).numGrid = h.numGrid := by
  induction ops generalizing h with
  | nil => exact ⟨hc, rfl, rfl, rfl⟩
  | cons o ops ih =>
    suffices hs : (h.call o).Consistent ∧ (h.call o).azi = h.azi ∧ (h.call o).zen = h.zen ∧ (h.call o).numGrid = h.numGrid by
      obtain ⟨i1, i2, i3, i4⟩ := ih (h.call o) hs.1 fun q hq => hops q (List.mem_cons_of_mem _ hq)
      exact ⟨i1, i2.trans hs.2.1, i3.trans hs.2.2.1, i4.trans hs.2.2.2⟩
    have ho := hops o (by simp)
    cases o with
    | update l r =>
      obtain ⟨wl, wr, hs⟩ := ho
      simp only [HRIRs.call, HRIRs.update]
      split
      · rename_i h' hi
        have h1 := C52_init_partial _ _ _ _ _ _ wl wr hi
        obtain ⟨n, cl, cr, e1, e2, e3, e4, e5, e6, e7, e8, e9, e10, w1, w2, e11, e12, -⟩ := init_spec _ _ _ _ _ _ wl wr hi
        refine ⟨h1.2.2.2.2.2.2 hs, e11, e12, ?_⟩
        have := hc.1
        rw [e6, ← e7, e11, ← this]
      · exact ⟨hc, rfl, rfl, rfl⟩
    | ctf t m =>
      obtain ⟨c1, c2, c3, c4, c5, c6, c7, c8⟩ := hc
      have hc' : h.Consistent := ⟨c1, c2, c3, c4, c5, c6, c7, c8⟩
      simp only [HRIRs.call, HRIRs.applyCtfEq]
      rcases hl : convRows m h.left t with e | l
      · exact ⟨hc', rfl, rfl, rfl⟩
      · have s1 := convRows_spec c5 hl
        rcases hr : convRows m h.right t with e | r
        · exfalso
          unfold convRows at hl hr
          have n0 : h.left.rows = [] ↔ h.right.rows = [] := by
            rw [← List.length_eq_zero_iff, ← List.length_eq_zero_iff, c3, c4]
          have n1 : h.left.cols = h.right.cols := by rw [c7, c8]
          have n2 : h.left.rows.length = h.right.rows.length := by rw [c3, c4]
          split at hr
          · rename_i q
            rw [if_pos (by rw [n0, n1]; exact q)] at hl
            cases hl
          · rename_i q
            rw [if_neg (by rw [n0, n1]; exact q)] at hl
            split at hr
            · rename_i q'
              rw [if_pos (by rw [n1, n2]; exact q')] at hl
              cases hl
            · cases hr
        · have s2 := convRows_spec c6 hr
          refine ⟨⟨c1, c2, by rw [← c3]; exact s1.2.1, by rw [← c4]; exact s2.2.1, s1.1, s2.1, rfl, ?_⟩, rfl, rfl, rfl⟩
          change r.cols = l.cols
          rw [s1.2.2, s2.2.2, c7, c8]

/-- **C52** `apply_ctf_eq` on a consistent set: it is rejected exactly when the set or the filter is empty or, in mode `'valid'`, several directions have fewer taps
than the filter, and then nothing changes.  Otherwise the responses of both ears are convolved with the filter and nothing but the responses and `num_samples` changes. -/
theorem C52_equalise (h : HRIRs) (hc : h.Consistent) (taps : List ℝ) (mode : ConvMode) :
    ((h.numGrid = 0 ∨ h.numSamples = 0 ∨ taps = [] ∨ (mode = .valid ∧ h.numSamples < taps.length ∧ 1 < h.numGrid)) →
      h.applyCtfEq taps mode = (h, some .valueError)) ∧
    (h.numGrid ≠ 0 → h.numSamples ≠ 0 → taps ≠ [] → (mode = .valid → taps.length ≤ h.numSamples ∨ h.numGrid = 1) →
      ∃ h', h.applyCtfEq taps mode = (h', none) ∧ h'.Consistent ∧ h'.numSamples = convCount mode h.numSamples taps.length ∧
        h'.azi = h.azi ∧ h'.zen = h.zen ∧ h'.fs = h.fs ∧ h'.numGrid = h.numGrid ∧
        ∀ (d n : ℕ), d < h.numGrid → n < h'.numSamples →
          ((h'.left.rows.getD d []).getD n 0 = linConv (h.left.rows.getD d []) taps (n + convStart mode h.numSamples taps.length)) ∧
          ((h'.right.rows.getD d []).getD n 0 = linConv (h.right.rows.getD d []) taps (n + convStart mode h.numSamples taps.length))) := by
  have hist := (C52_history_partial h hc [.ctf taps mode] (by simp [HOp.Fits])).1
  obtain ⟨c1, c2, c3, c4, c5, c6, c7, c8⟩ := hc
  constructor
  · intro hb
    have : convRows mode h.left taps = .error .valueError := by
      unfold convRows
      by_cases h1 : h.left.rows = [] ∨ h.left.cols = 0 ∨ taps = []
      · rw [if_pos h1]
      · rw [if_neg h1]
        rcases hb with h2 | h2 | h2 | h2
        · exact absurd (.inl (List.length_eq_zero_iff.1 (c3.trans h2))) h1
        · exact absurd (.inr (.inl (c7.trans h2))) h1
        · exact absurd (.inr (.inr h2)) h1
        · rw [if_pos (by rw [c7, c3]; exact h2)]
    unfold HRIRs.applyCtfEq
    rw [this]
  · intro g1 g2 g3 g4
    have ok : ∀ a : Arr2, a.rows.length = h.numGrid → a.cols = h.numSamples →
        convRows mode a taps = .ok { cols := convLen mode a.cols taps.length, rows := a.rows.map fun r => convKeep mode r taps } := by
      intro a e1 e2
      unfold convRows
      rw [if_neg, if_neg]
      · rintro ⟨q1, q2, q3⟩
        rw [e2] at q2; rw [e1] at q3
        rcases g4 q1 with q | q <;> omega
      · rintro (q | q | q)
        · rw [q] at e1; exact g1 e1.symm
        · exact g2 (e2 ▸ q)
        · exact g3 q
    have he : h.applyCtfEq taps mode = ({ h with
        left := { cols := convLen mode h.left.cols taps.length, rows := h.left.rows.map fun r => convKeep mode r taps }
        right := { cols := convLen mode h.right.cols taps.length, rows := h.right.rows.map fun r => convKeep mode r taps }
        numSamples := convLen mode h.left.cols taps.length }, none) := by
      unfold HRIRs.applyCtfEq
      rw [ok _ c3 c7, ok _ c4 c8]
    have hist' : (h.applyCtfEq taps mode).1.Consistent := hist
    refine ⟨_, he, ?_, ?_, rfl, rfl, rfl, rfl, ?_⟩
    · rw [he] at hist'; exact hist'
    · dsimp only
      rw [c7]
      cases mode <;> rfl
    · intro d n hd hn
      have one : ∀ a : Arr2, a.WF → a.rows.length = h.numGrid → a.cols = h.numSamples →
          ((a.rows.map fun r => convKeep mode r taps).getD d []).getD n 0 = linConv (a.rows.getD d []) taps (n + convStart mode h.numSamples taps.length) := by
        intro a w e1 e2
        have hd' : d < a.rows.length := by omega
        have hl : a.rows[d].length = h.numSamples := by rw [← e2]; exact w _ (List.getElem_mem _)
        rw [show (a.rows.map fun r => convKeep mode r taps).getD d [] = convKeep mode a.rows[d] taps by
          rw [List.getD_eq_getElem?_getD, List.getElem?_map, List.getElem?_eq_getElem hd']; rfl]
        rw [show a.rows.getD d [] = a.rows[d] by rw [List.getD_eq_getElem?_getD, List.getElem?_eq_getElem hd']; rfl]
        rw [convKeep_spec mode _ _ (fun q => g2 (by rw [← hl, q]; rfl)) g3, hl]
        have hn' : n < convCount mode h.numSamples taps.length := by
          have e : convLen mode h.left.cols taps.length = convCount mode h.numSamples taps.length := by rw [c7]; cases mode <;> rfl
          rw [← e]; exact hn
        rw [List.getD_eq_getElem?_getD, List.getElem?_map, List.getElem?_range hn']
        rfl
      exact ⟨one _ c5 c3 c7, one _ c6 c4 c8⟩

/-- **C52** (negative part) When the ears have different numbers of taps, a rejected `apply_ctf_eq` call can leave the left ear equalised and the right one not. -/
theorem C52_equalise_half : ∃ h h' : HRIRs, HRIRs.init ⟨[2, 2], [1, 0, 0, 1]⟩ ⟨[2, 1], [1, 1]⟩ ⟨[2], [0, 1]⟩ ⟨[2], [1, 1]⟩ 48000 = .ok h ∧
    h.applyCtfEq [1, 2] .valid = (h', some .valueError) ∧ h.left.rows = [[1, 0], [0, 1]] ∧ h'.left.rows = [[2], [1]] ∧ h'.right = h.right ∧
    h'.numSamples = 2 := by
  refine ⟨{ left := Arr2.ofND 2 2 [1, 0, 0, 1], right := Arr2.ofND 2 1 [1, 1], azi := [0, 1], zen := [1, 1], fs := 48000, numGrid := 2, numSamples := 2 },
    { left := ⟨1, [[2], [1]]⟩, right := Arr2.ofND 2 1 [1, 1], azi := [0, 1], zen := [1, 1], fs := 48000, numGrid := 2, numSamples := 2 }, ?_, ?_, ?_, rfl, rfl, rfl⟩
  · simp [HRIRs.init, HRIRs.finish, asarray1d, NDArray.squeeze, Except.bind, Arr2.ofND, List.range_succ]
  · simp [HRIRs.applyCtfEq, convRows, Arr2.ofND, List.range_succ, convLen, convKeep, convFull, convAt, Finset.sum_range_succ]
  · simp [Arr2.ofND, List.range_succ]

/-- `C52_equalise`: two directions, two taps, a filter of three. -/
example : ∃ h', twoHrirs.applyCtfEq [1, 2, 3] .full = (h', none) ∧ h'.numSamples = 4 := by
  obtain ⟨h', e, -, n, -⟩ := (C52_equalise twoHrirs twoHrirs_consistent [1, 2, 3] .full).2 (by simp [twoHrirs]) (by simp [twoHrirs]) (by simp) (by simp)
  exact ⟨h', e, by rw [n]; simp [convCount, twoHrirs]⟩

example : ([HOp.ctf [1, 2, 3] .full, .update ⟨[2, 1], [1, 2]⟩ ⟨[2, 1], [3, 4]⟩, .ctf [1, 2] .same].foldl HRIRs.call twoHrirs).Consistent :=
  (C52_history_partial twoHrirs twoHrirs_consistent _ (by simp [HOp.Fits, NDArray.WF])).1

end Verif.Sig
