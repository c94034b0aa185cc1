import Mathlib.Tactic
import Verif.Model.IoHrirs
import Verif.Proofs.GaussLegendre
import Verif.Props.Hrirs
import Verif.Props.ProcessSignals

/-!
C78 (dummy and default HRIR sets of `load_hrirs`).
-/

namespace Verif.Props

open Verif.Sig Verif.Io Verif.Grids Real

/-- A unit impulse response of 256 taps: value `v` at tap `n`, zero elsewhere. -/
def impulse256 (n : ℕ) (v : ℝ) : List ℝ := (List.range 256).map fun k => if k = n then v else 0

theorem impulse256_length (n : ℕ) (v : ℝ) : (impulse256 n v).length = 256 := by simp [impulse256]

theorem set_replicate (n : ℕ) (v : ℝ) : (List.replicate 256 (0 : ℝ)).set n v = impulse256 n v := by
  apply List.ext_getElem (by rw [List.length_set, List.length_replicate, impulse256_length])
  intro i h1 h2
  rw [List.getElem_set]
  simp only [impulse256, List.getElem_map, List.getElem_range, List.getElem_replicate]
  by_cases h : n = i
  · rw [if_pos h, if_pos h.symm]
  · rw [if_neg h, if_neg (Ne.symm h)]

theorem map_impulse (n : ℕ) (v c : ℝ) : (impulse256 n v).map (· * c) = impulse256 n (v * c) := by
  unfold impulse256
  rw [List.map_map]
  apply List.map_congr_left
  intro k _
  show (if k = n then v else 0) * c = _
  split_ifs <;> simp

theorem impulse_set (n k : ℕ) (v : ℝ) (h : k ≠ n) : (impulse256 n v).set k 0 = impulse256 n v := by
  apply List.ext_getElem (by simp)
  intro i h1 h2
  rw [List.getElem_set]
  split_ifs with hk
  · subst hk
    simp only [impulse256, List.getElem_map, List.getElem_range]
    rw [if_neg h]
  · rfl

theorem pyInt_range {x : ℝ} {a b : ℕ} (h1 : (a : ℝ) ≤ x) (h2 : x < b) : ∃ k : ℕ, pyInt x = k ∧ a ≤ k ∧ k < b := by
  have h0 : 0 ≤ x := le_trans (Nat.cast_nonneg _) h1
  refine ⟨⌊x⌋₊, ?_, Nat.le_floor h1, (Nat.floor_lt h0).2 h2⟩
  unfold pyInt
  rw [if_pos h0]
  exact (Int.natCast_floor_eq_floor h0).symm

/-- The tap of the impulse256 in the ear opposite to the gain `a`. -/
noncomputable def dummyTap (a fs : ℝ) : ℕ := ⌊a * 0.75e-3 * fs + 10⌋₊

theorem pyInt_nonneg {x : ℝ} (h : 0 ≤ x) : pyInt x = (⌊x⌋₊ : ℤ) := by
  unfold pyInt; rw [if_pos h]; exact (Int.natCast_floor_eq_floor h).symm

theorem dummyRow_ok (own other fs : ℝ) (ho : 0 ≤ own ∧ own ≤ 1) (h0 : 0 ≤ other) (hfs : 0 ≤ fs) (hb : other * 0.75e-3 * fs < 246) :
    dummyRow own other fs = .ok (impulse256 (dummyTap other fs) (own + 0.1)) ∧ 10 ≤ dummyTap other fs ∧ dummyTap other fs < 256 := by
  have hx : 0 ≤ other * 0.75e-3 * fs := by positivity
  have h10 : 10 ≤ dummyTap other fs := Nat.le_floor (by push_cast; linarith)
  have h256 : dummyTap other fs < 256 := (Nat.floor_lt (by linarith)).2 (by push_cast; linarith)
  refine ⟨?_, h10, h256⟩
  have hs1 : setIdx (List.replicate 256 0) (pyInt (other * 0.75e-3 * fs + 10)) 1 = .ok (impulse256 (dummyTap other fs) 1) := by
    rw [pyInt_nonneg (by linarith)]
    change setIdx _ (dummyTap other fs : ℤ) 1 = _
    unfold setIdx
    rw [if_pos (by rw [List.length_replicate]; omega), Int.toNat_natCast, set_replicate]
  unfold dummyRow
  rw [hs1]
  show setIdx ((impulse256 (dummyTap other fs) 1).map (· * (own + 0.1))) (pyInt (own * 5)) (((impulse256 (dummyTap other fs) 1).map (· * (own + 0.1))).getD 0 0) = _
  rw [map_impulse, one_mul, pyInt_nonneg (by linarith [ho.1])]
  have h5 : ⌊own * 5⌋₊ < 6 := (Nat.floor_lt (by linarith [ho.1])).2 (by push_cast; linarith [ho.2])
  have hget : (impulse256 (dummyTap other fs) (own + 0.1)).getD 0 0 = 0 := by
    rw [List.getD_eq_getElem _ _ (by rw [impulse256_length]; norm_num)]
    simp only [impulse256, List.getElem_map, List.getElem_range]
    rw [if_neg (by omega)]
  unfold setIdx
  rw [if_pos (by rw [impulse256_length]; omega), hget, Int.toNat_natCast, impulse_set _ _ _ (by omega)]

theorem dummyRow_bad (own other fs : ℝ) (hb : 246 ≤ other * 0.75e-3 * fs) : dummyRow own other fs = .error .indexError := by
  unfold dummyRow
  rw [pyInt_nonneg (by linarith)]
  have h : 256 ≤ ⌊other * 0.75e-3 * fs + 10⌋₊ := Nat.le_floor (by push_cast; linarith)
  have : setIdx (List.replicate 256 0) (⌊other * 0.75e-3 * fs + 10⌋₊ : ℤ) 1 = .error .indexError := by
    unfold setIdx
    rw [if_neg (by rw [List.length_replicate]; omega), if_neg (by omega)]
  rw [this]; rfl

/-! ### Rows of an array -/

theorem ofND_flatten (c : ℕ) (rows : List (List ℝ)) (h : ∀ r ∈ rows, r.length = c) : Arr2.ofND rows.length c rows.flatten = ⟨c, rows⟩ := by
  have key : ∀ (rows : List (List ℝ)), (∀ r ∈ rows, r.length = c) → ∀ i (hi : i < rows.length), (rows.flatten.drop (i * c)).take c = rows[i] := by
    intro rows
    induction rows with
    | nil => intro _ i hi; simp at hi
    | cons r rows ih =>
      intro h i hi
      have hr : r.length = c := h r (by simp)
      rcases i with _ | i
      · simp [← hr]
      · rw [List.flatten_cons, show (i + 1) * c = r.length + i * c by rw [hr]; ring, List.drop_append, List.drop_eq_nil_of_le (by omega), Nat.add_sub_cancel_left, List.nil_append]
        exact ih (fun r hr => h r (by simp [hr])) i (by simpa using hi)
  unfold Arr2.ofND
  congr 1
  apply List.ext_getElem (by simp)
  intro i h1 h2
  simp only [List.getElem_map, List.getElem_range]
  exact key rows h i h2

theorem hrirs_init (G T : ℕ) (hG : 1 < G) (rl rr : List (List ℝ)) (azi zen : List ℝ) (lrl : rl.length = G) (lrr : rr.length = G)
    (wl : ∀ r ∈ rl, r.length = T) (wr : ∀ r ∈ rr, r.length = T) (la : azi.length = G) (lz : zen.length = G) (fs : ℝ) :
    HRIRs.init ⟨[G, T], rl.flatten⟩ ⟨[G, T], rr.flatten⟩ ⟨[G], azi⟩ ⟨[G], zen⟩ fs = .ok ⟨⟨T, rl⟩, ⟨T, rr⟩, azi, zen, fs, G, T⟩ := by
  have as1 : ∀ x : List ℝ, Utils.asarray1d (⟨[G], x⟩ : NDArray ℝ) = .ok ⟨[G], x⟩ := by
    intro x; simp [Utils.asarray1d, NDArray.squeeze, show G ≠ 1 by omega]
  have e1 := ofND_flatten T rl wl
  have e2 := ofND_flatten T rr wr
  rw [lrl] at e1
  rw [lrr] at e2
  unfold HRIRs.init
  simp only [ne_eq, not_true_eq_false, if_false]
  rw [e1, e2]
  unfold HRIRs.finish
  rw [as1, as1]
  show (if azi.length ≠ zen.length then (Except.error .assertionError : Py HRIRs) else
    if azi.length ≠ rl.length then .error .assertionError else .ok ⟨⟨T, rl⟩, ⟨T, rr⟩, azi, zen, fs, azi.length, T⟩) = _
  rw [if_neg (fun h => h (la.trans lz.symm)), if_neg (fun h => h (la.trans lrl.symm)), la]

/-! ### The gains -/

/-- The left gain of a direction: large for directions on the left (`azi = π/2`). -/
noncomputable def leftGain (azi zen : ℝ) : ℝ := (1 + sin azi) / 2 * sin zen
/-- The right gain of a direction. -/
noncomputable def rightGain (azi zen : ℝ) : ℝ := (1 - sin azi) / 2 * sin zen

theorem earGain_left (azi zen : ℝ) : earGain 1 azi zen = leftGain azi zen := by
  unfold earGain leftGain
  rw [one_mul, cos_sub_pi_div_two]; ring

theorem earGain_right (azi zen : ℝ) : earGain (-1) azi zen = rightGain azi zen := by
  unfold earGain rightGain
  rw [neg_one_mul, sub_neg_eq_add, cos_add_pi_div_two]; ring

theorem gain_range (azi zen : ℝ) (h1 : 0 < zen) (h2 : zen < π) :
    (0 ≤ leftGain azi zen ∧ leftGain azi zen ≤ 1) ∧ 0 ≤ rightGain azi zen ∧ rightGain azi zen ≤ 1 := by
  have hs := sin_pos_of_pos_of_lt_pi h1 h2
  have hs1 := sin_le_one zen
  have ha := neg_one_le_sin azi
  have hb := sin_le_one azi
  unfold leftGain rightGain
  refine ⟨⟨mul_nonneg (by linarith) hs.le, ?_⟩, mul_nonneg (by linarith) hs.le, ?_⟩
  · nlinarith
  · nlinarith

/-! ### C78 -/

theorem length_gauss15 (lg : ℕ → List ℝ × List ℝ) (hl : IsGaussLegendre 16 (lg 16)) :
    (gauss lg 15).1.length = 512 ∧ (gauss lg 15).2.1.length = 512 := by
  have := C27_gauss lg 15 hl
  exact ⟨by rw [this.1], by rw [this.2.1]⟩

/-- C78, the dummy set for every rate it can represent: no grid direction delays an ear by 246 samples or more.  The set has 512
directions – those of the Gauss grid of order 15 – and 256 taps, and each ear has exactly one impulse256, inside the taps, with the gain of
its own side and delayed by the gain of the other side. -/
theorem C78_dummy (lg : ℕ → List ℝ × List ℝ) (hl : IsGaussLegendre 16 (lg 16)) (found generated : ℝ → Py MatFile) (fs : ℝ) (hfs : 0 ≤ fs)
    (hd : ∀ d ∈ (gauss lg 15).1.zip (gauss lg 15).2.1, leftGain d.1 d.2 * 0.75e-3 * fs < 246 ∧ rightGain d.1 d.2 * 0.75e-3 * fs < 246) :
    ∃ h, loadHrirs lg found generated fs .dummy = .ok h ∧ h.fs = fs ∧ h.numGrid = 512 ∧ h.numSamples = 256 ∧
      h.azi = (gauss lg 15).1 ∧ h.zen = (gauss lg 15).2.1 ∧ h.left.cols = 256 ∧ h.right.cols = 256 ∧
      h.left.rows.length = 512 ∧ h.right.rows.length = 512 ∧
      ∀ g < 512, ∃ tl tr : ℕ, 10 ≤ tl ∧ tl < 256 ∧ 10 ≤ tr ∧ tr < 256 ∧
        (tl : ℤ) = ⌊rightGain (h.azi.getD g 0) (h.zen.getD g 0) * 0.75e-3 * fs + 10⌋ ∧
        (tr : ℤ) = ⌊leftGain (h.azi.getD g 0) (h.zen.getD g 0) * 0.75e-3 * fs + 10⌋ ∧
        h.left.rows.getD g [] = impulse256 tl (leftGain (h.azi.getD g 0) (h.zen.getD g 0) + 0.1) ∧
        h.right.rows.getD g [] = impulse256 tr (rightGain (h.azi.getD g 0) (h.zen.getD g 0) + 0.1) := by
  obtain ⟨la, lz⟩ := length_gauss15 lg hl
  have hzen := (C27_gauss lg 15 hl).2.2.2.2.2
  set azi := (gauss lg 15).1 with hazi
  set zen := (gauss lg 15).2.1 with hzn
  have hrange : ∀ d ∈ azi.zip zen, (0 ≤ leftGain d.1 d.2 ∧ leftGain d.1 d.2 ≤ 1) ∧ 0 ≤ rightGain d.1 d.2 ∧ rightGain d.1 d.2 ≤ 1 := by
    intro d hd'
    have := hzen d.2 (List.of_mem_zip hd').2
    exact gain_range _ _ this.1 this.2
  have hL : ∀ d ∈ azi.zip zen, dummyRow (earGain 1 d.1 d.2) (earGain (-1) d.1 d.2) fs
      = .ok (impulse256 (dummyTap (rightGain d.1 d.2) fs) (leftGain d.1 d.2 + 0.1)) := by
    intro d hd'
    rw [earGain_left, earGain_right]
    exact (dummyRow_ok _ _ fs (hrange d hd').1 (hrange d hd').2.1 hfs (hd d hd').2).1
  have hR : ∀ d ∈ azi.zip zen, dummyRow (earGain (-1) d.1 d.2) (earGain 1 d.1 d.2) fs
      = .ok (impulse256 (dummyTap (leftGain d.1 d.2) fs) (rightGain d.1 d.2 + 0.1)) := by
    intro d hd'
    rw [earGain_left, earGain_right]
    exact (dummyRow_ok _ _ fs (hrange d hd').2 (hrange d hd').1.1 hfs (hd d hd').1).1
  set rl := (azi.zip zen).map fun d => impulse256 (dummyTap (rightGain d.1 d.2) fs) (leftGain d.1 d.2 + 0.1) with hrl
  set rr := (azi.zip zen).map fun d => impulse256 (dummyTap (leftGain d.1 d.2) fs) (rightGain d.1 d.2 + 0.1) with hrr
  have hrows : dummyRows azi zen fs = .ok (rl, rr) := by
    unfold dummyRows
    rw [mapM_eq_map _ _ _ hL, mapM_eq_map _ _ _ hR]; rfl
  have lrl : rl.length = 512 := by simp [hrl, la, lz]
  have lrr : rr.length = 512 := by simp [hrr, la, lz]
  have wl : ∀ r ∈ rl, r.length = 256 := by
    intro r hr; obtain ⟨_, _, rfl⟩ := List.mem_map.1 hr; exact impulse256_length _ _
  have wr : ∀ r ∈ rr, r.length = 256 := by
    intro r hr; obtain ⟨_, _, rfl⟩ := List.mem_map.1 hr; exact impulse256_length _ _
  have hdummy : dummyHrirs lg fs = .ok ⟨⟨256, rl⟩, ⟨256, rr⟩, azi, zen, fs, 512, 256⟩ := by
    unfold dummyHrirs
    simp only [← hazi, ← hzn, hrows, Except.bind, la, lz]
    have := hrirs_init 512 256 (by norm_num) rl rr azi zen lrl lrr wl wr la lz fs
    exact this
  refine ⟨⟨⟨256, rl⟩, ⟨256, rr⟩, azi, zen, fs, 512, 256⟩, ?_, rfl, rfl, rfl, rfl, rfl, rfl, rfl, lrl, lrr, ?_⟩
  · unfold loadHrirs
    simp only [hdummy, Except.bind]
    rw [if_pos trivial]
  · intro g hg
    have hz : g < (azi.zip zen).length := by simp [la, lz, hg]
    have hmem := List.getElem_mem hz
    have hga : (azi.zip zen)[g].1 = azi.getD g 0 := by
      rw [List.getElem_zip, List.getD_eq_getElem _ _ (by omega)]
    have hgz : (azi.zip zen)[g].2 = zen.getD g 0 := by
      rw [List.getElem_zip, List.getD_eq_getElem _ _ (by omega)]
    have k1 := dummyRow_ok _ _ fs (hrange _ hmem).1 (hrange _ hmem).2.1 hfs (hd _ hmem).2
    have k2 := dummyRow_ok _ _ fs (hrange _ hmem).2 (hrange _ hmem).1.1 hfs (hd _ hmem).1
    rw [hga, hgz] at k1 k2
    have hrg := hrange _ hmem
    rw [hga, hgz] at hrg
    refine ⟨_, _, k1.2.1, k1.2.2, k2.2.1, k2.2.2, ?_, ?_, ?_, ?_⟩
    · exact Int.natCast_floor_eq_floor (by have := hrg.2.1; positivity)
    · exact Int.natCast_floor_eq_floor (by have := hrg.1.1; positivity)
    · show rl.getD g [] = _
      rw [List.getD_eq_getElem _ _ (by omega)]
      simp only [hrl, List.getElem_map]
      rw [hga, hgz]
    · show rr.getD g [] = _
      rw [List.getD_eq_getElem _ _ (by omega)]
      simp only [hrr, List.getElem_map]
      rw [hga, hgz]

/-- C78, what holds of "every sampling rate": all rates below 328 kHz satisfy the condition of `C78_dummy`.  Missing: higher rates, see
`C78_high_rate_fails`. -/
theorem C78_rates_partial (lg : ℕ → List ℝ × List ℝ) (hl : IsGaussLegendre 16 (lg 16)) (fs : ℝ) (hfs : 0 ≤ fs) (hhi : fs < 328000) :
    ∀ d ∈ (gauss lg 15).1.zip (gauss lg 15).2.1, leftGain d.1 d.2 * 0.75e-3 * fs < 246 ∧ rightGain d.1 d.2 * 0.75e-3 * fs < 246 := by
  intro d hd
  have hz := (C27_gauss lg 15 hl).2.2.2.2.2 d.2 (List.of_mem_zip hd).2
  obtain ⟨⟨h1, h2⟩, h3, h4⟩ := gain_range d.1 d.2 hz.1 hz.2
  constructor <;> norm_num <;> nlinarith

/-- C78 is false of high rates: from 402 kHz on `load_hrirs(fs, 'dummy')` raises `IndexError`. -/
theorem C78_high_rate_fails (lg : ℕ → List ℝ × List ℝ) (hl : IsGaussLegendre 16 (lg 16)) (found generated : ℝ → Py MatFile) (fs : ℝ)
    (hfs : 402000 ≤ fs) : loadHrirs lg found generated fs .dummy = .error .indexError := by
  obtain ⟨la, lz⟩ := length_gauss15 lg hl
  obtain ⟨i, hi, hx⟩ := gauss_small_node 16 (by norm_num) _ hl
  have hzen := (C27_gauss lg 15 hl).2.2.2.2.2
  -- the grid point with azimuth `3π/2` in row `i`
  have hg : i * 32 + 24 < 512 := by omega
  have hazi : (gauss lg 15).1.getD (i * 32 + 24) 0 = 3 * π / 2 := by
    have h1 : (linspaceOpen (2 * π) 32).length = 32 := length_linspaceOpen _ _
    have h2 := npTile_getD (linspaceOpen (2 * π) 32) (P := 16) (i := i) (k := 24) hi (by rw [h1]; norm_num)
    rw [h1] at h2
    show (npTile (linspaceOpen (2 * π) (2 * 15 + 2)) (15 + 1)).getD _ 0 = _
    rw [show 2 * 15 + 2 = 32 from rfl, show 15 + 1 = 16 from rfl, h2, linspaceOpen_getD _ (by norm_num)]
    push_cast; ring
  have hz : (gauss lg 15).2.1.getD (i * 32 + 24) 0 = arccos ((lg 16).1.getD i 0) := by
    have h2 := npRepeat_getD ((lg 16).1.map arccos) (L := 32) (i := i) (k := 24) (by rw [List.length_map, hl.nodes]; exact hi) (by norm_num)
    show (npRepeat ((lg (15 + 1)).1.map arccos) (2 * 15 + 2)).getD _ 0 = _
    rw [show 2 * 15 + 2 = 32 from rfl, show 15 + 1 = 16 from rfl, h2, map_getD _ _ (by rw [hl.nodes]; exact hi)]
  set azi := (gauss lg 15).1 with hae
  set zen := (gauss lg 15).2.1 with hze
  have hzl : i * 32 + 24 < (azi.zip zen).length := by simp [la, lz, hg]
  have hd : (azi.zip zen)[i * 32 + 24] = (3 * π / 2, arccos ((lg 16).1.getD i 0)) := by
    rw [List.getElem_zip, ← hazi, ← hz, List.getD_eq_getElem _ _ (by omega), List.getD_eq_getElem _ _ (by omega)]
  have hgain : rightGain (3 * π / 2) (arccos ((lg 16).1.getD i 0)) = √(1 - ((lg 16).1.getD i 0) ^ 2) := by
    unfold rightGain
    rw [sin_arccos, show 3 * π / 2 = π + π / 2 by ring, sin_add, sin_pi, cos_pi, sin_pi_div_two]
    norm_num
  have hs : (0.816 : ℝ) ≤ √(1 - ((lg 16).1.getD i 0) ^ 2) := by
    apply Real.le_sqrt_of_sq_le
    have h2 : (0.816 : ℝ) ^ 2 ≤ 1 - 1 / 3 := by norm_num
    linarith
  have hdm : (3 * π / 2, arccos ((lg 16).1.getD i 0)) ∈ azi.zip zen := by rw [← hd]; exact List.getElem_mem hzl
  have hbad : dummyRow (earGain 1 (3 * π / 2) (arccos ((lg 16).1.getD i 0))) (earGain (-1) (3 * π / 2) (arccos ((lg 16).1.getD i 0))) fs
      = .error .indexError := by
    apply dummyRow_bad
    rw [earGain_right, hgain]
    have h1 : (0.816 : ℝ) * 0.75e-3 ≤ √(1 - ((lg 16).1.getD i 0) ^ 2) * 0.75e-3 := mul_le_mul_of_nonneg_right hs (by norm_num)
    have h2 : (0.816 : ℝ) * 0.75e-3 * 402000 ≤ √(1 - ((lg 16).1.getD i 0) ^ 2) * 0.75e-3 * fs := mul_le_mul h1 hfs (by norm_num) (by positivity)
    exact le_trans (by norm_num) h2
  have hall : ∀ d ∈ azi.zip zen, dummyRow (earGain 1 d.1 d.2) (earGain (-1) d.1 d.2) fs = .error .indexError ∨
      ∃ r, dummyRow (earGain 1 d.1 d.2) (earGain (-1) d.1 d.2) fs = .ok r := by
    intro d hd'
    rcases h : dummyRow (earGain 1 d.1 d.2) (earGain (-1) d.1 d.2) fs with e | r
    · left
      have hr := hzen d.2 (List.of_mem_zip hd').2
      obtain ⟨⟨h1, h2⟩, h3, h4⟩ := gain_range d.1 d.2 hr.1 hr.2
      by_cases hb : 246 ≤ earGain (-1) d.1 d.2 * 0.75e-3 * fs
      · rw [dummyRow_bad _ _ _ hb] at h; exact h.symm ▸ rfl
      · have := (dummyRow_ok (earGain 1 d.1 d.2) (earGain (-1) d.1 d.2) fs (by rw [earGain_left]; exact ⟨h1, h2⟩) (by rw [earGain_right]; exact h3) (by linarith) (by linarith)).1
        rw [this] at h; cases h
    · exact .inr ⟨r, rfl⟩
  have hm : ∀ (l : List (ℝ × ℝ)) (f : ℝ × ℝ → Py (List ℝ)), (∀ d ∈ l, f d = .error .indexError ∨ ∃ r, f d = .ok r) → (∃ d ∈ l, f d = .error .indexError) → l.mapM f = .error .indexError := by
    intro l f
    induction l with
    | nil => rintro _ ⟨d, hd, _⟩; cases hd
    | cons a l ih =>
      intro h1 h2
      rw [List.mapM_cons]
      rcases h1 a (by simp) with h | ⟨r, h⟩
      · rw [h]; rfl
      · rw [h]
        have : l.mapM f = .error .indexError := by
          apply ih (fun d hd => h1 d (by simp [hd]))
          obtain ⟨d, hd, hde⟩ := h2
          rcases List.mem_cons.1 hd with rfl | hd
          · rw [h] at hde; cases hde
          · exact ⟨d, hd, hde⟩
        rw [this]; rfl
  have hrows : dummyRows azi zen fs = .error .indexError := by
    unfold dummyRows
    rw [hm _ _ hall ⟨_, hdm, hbad⟩]; rfl
  unfold loadHrirs dummyHrirs
  simp only [← hae, ← hze, hrows, Except.bind]

/-- C78: the set returned always has the requested rate, whatever was asked for and whatever the files contain. -/
theorem C78_fs (lg : ℕ → List ℝ × List ℝ) (found generated : ℝ → Py MatFile) (fs : ℝ) (src : HrirSource) (h : HRIRs)
    (hh : loadHrirs lg found generated fs src = .ok h) : h.fs = fs := by
  unfold loadHrirs at hh
  have key : ∀ r : Py HRIRs, (r.bind fun h => if h.fs = fs then (.ok h : Py HRIRs) else .error .assertionError) = .ok h → h.fs = fs := by
    intro r hh
    rcases r with e | h'
    · cases hh
    change (if h'.fs = fs then (Except.ok h' : Py HRIRs) else .error .assertionError) = .ok h at hh
    split_ifs at hh with hf
    cases hh; exact hf
  exact key _ hh

/-- C78: the default set is offered for no other rate than 44100, 48000 and 96000 Hz. -/
theorem C78_default_rates (lg : ℕ → List ℝ × List ℝ) (found generated : ℝ → Py MatFile) (fs : ℝ) (h : fs ≠ 44100 ∧ fs ≠ 48000 ∧ fs ≠ 96000) :
    loadHrirs lg found generated fs .default = .error .notImplementedError := by
  unfold loadHrirs
  simp only [Except.bind]
  rw [if_pos (by push Not; exact h)]

/-- C78: only a missing default file is replaced by a generated one.  Any other failure to read it is reported as it is, whatever generating would give; and
if generating fails, that failure is reported. -/
theorem C78_default_errors (lg : ℕ → List ℝ × List ℝ) (found generated : ℝ → Py MatFile) (fs : ℝ) (hfs : fs = 44100 ∨ fs = 48000 ∨ fs = 96000) (e : PyErr)
    (h : (found fs = .error e ∧ e ≠ .osError) ∨ (found fs = .error .osError ∧ generated fs = .error e)) :
    loadHrirs lg found generated fs .default = .error e := by
  unfold loadHrirs
  simp only
  rw [if_neg (by push Not; tauto)]
  rcases h with ⟨h1, h2⟩ | ⟨h1, h2⟩
  · rw [h1]
    cases e <;> first | rfl | exact absurd rfl h2
  · rw [h1, h2]
    rfl

example (lg : ℕ → List ℝ × List ℝ) (m : MatFile) : loadHrirs lg (fun _ => .error .keyError) (fun _ => .ok m) 48000 .default = .error .keyError :=
  C78_default_errors lg _ _ _ (by norm_num) .keyError (Or.inl ⟨rfl, by simp⟩)

/-- C78: for those three rates the set stored in the default file is returned, which is generated if it does not exist yet. -/
theorem C78_default (lg : ℕ → List ℝ × List ℝ) (found generated : ℝ → Py MatFile) (fs : ℝ) (hfs : fs = 44100 ∨ fs = 48000 ∨ fs = 96000)
    (m : MatFile) (hm : found fs = .ok m ∨ found fs = .error .osError ∧ generated fs = .ok m)
    (l r a z : NDArray ℝ) (hl : m.hrirL = some l) (hr : m.hrirR = some r) (ha : m.azi = some a) (hz : m.zen = some z)
    (G T : ℕ) (hG : 1 < G) (hT : 1 < T) (sl : l.shape = [G, T]) (sr : r.shape = [G, T])
    (sa : a.shape = [1, G] ∨ a.shape = [G, 1]) (sz : z.shape = [1, G] ∨ z.shape = [G, 1]) (da : a.data.length = G) (dz : z.data.length = G)
    (hmfs : m.fs = some fs ∨ m.fs = none ∧ m.samplingRate = some fs) :
    ∃ h, loadHrirs lg found generated fs .default = .ok h ∧ h.fs = fs ∧ h.azi = a.data ∧ h.zen = z.data ∧
      h.left = Arr2.ofND G T l.data ∧ h.right = Arr2.ofND G T r.data := by
  have hint : ((pyInt fs : ℤ) : ℝ) = fs := by
    rcases hfs with rfl | rfl | rfl <;> · unfold pyInt; norm_num
  have hfile : defaultFile (found fs) (generated fs) = .ok m := by
    rcases hm with h | ⟨h1, h2⟩
    · rw [h]; rfl
    · rw [h1, h2]; rfl
  have hmf : matFs m = .ok fs := by
    unfold matFs
    rcases hmfs with h | ⟨h1, h2⟩
    · simp only [h, hint]
    · simp only [h1, h2, key, Except.map, hint]
  have sq2 : ∀ x : NDArray ℝ, x.shape = [G, T] → x.squeeze = ⟨[G, T], x.data⟩ := by
    intro x hx
    unfold NDArray.squeeze
    rw [hx]
    simp [show G ≠ 1 by omega, show T ≠ 1 by omega]
  have sq1 : ∀ x : NDArray ℝ, x.shape = [1, G] ∨ x.shape = [G, 1] → x.squeeze = ⟨[G], x.data⟩ := by
    intro x hx
    unfold NDArray.squeeze
    rcases hx with hx | hx <;> rw [hx] <;> simp [show G ≠ 1 by omega]
  have as1 : ∀ x : List ℝ, Utils.asarray1d (⟨[G], x⟩ : NDArray ℝ) = .ok ⟨[G], x⟩ := by
    intro x; simp [Utils.asarray1d, NDArray.squeeze, show G ≠ 1 by omega]
  have hrow : (Arr2.ofND G T l.data).rows.length = G := by simp [Arr2.ofND]
  have hmat : matHrirs m = .ok ⟨Arr2.ofND G T l.data, Arr2.ofND G T r.data, a.data, z.data, fs, G, T⟩ := by
    unfold matHrirs
    simp only [hl, hr, ha, hz, key, hmf, Except.bind, sq2 l sl, sq2 r sr, sq1 a sa, sq1 z sz]
    unfold HRIRs.init
    simp only [ne_eq, not_true_eq_false, if_false]
    unfold HRIRs.finish
    rw [as1, as1]
    show (if a.data.length ≠ z.data.length then (Except.error .assertionError : Py HRIRs) else
      if a.data.length ≠ (Arr2.ofND G T l.data).rows.length then .error .assertionError else .ok _) = _
    rw [if_neg (by rw [da, dz]; simp), if_neg (by rw [da, hrow]; simp)]
    simp only [da]; rfl
  refine ⟨⟨Arr2.ofND G T l.data, Arr2.ofND G T r.data, a.data, z.data, fs, G, T⟩, ?_, rfl, rfl, rfl, rfl, rfl⟩
  unfold loadHrirs
  simp only [Except.bind]
  rw [if_neg (not_not.2 hfs), hfile]
  simp only [hmat]
  rw [if_pos trivial]

/-- The hypotheses are met: Gauss-Legendre rules exist, so the dummy set loads at 48 kHz and is rejected at 1 MHz. -/
example : ∃ lg : ℕ → List ℝ × List ℝ, IsGaussLegendre 16 (lg 16) ∧
    (∃ h, loadHrirs lg (fun _ => .error .osError) (fun _ => .error .osError) 48000 .dummy = .ok h ∧ h.numGrid = 512) ∧
    loadHrirs lg (fun _ => .error .osError) (fun _ => .error .osError) 1000000 .dummy = .error .indexError := by
  obtain ⟨r, hr⟩ := exists_gaussLegendre 16 (by norm_num)
  refine ⟨fun _ => r, hr, ?_, C78_high_rate_fails _ hr _ _ _ (by norm_num)⟩
  obtain ⟨h, h1, _, h2, _⟩ := C78_dummy (fun _ => r) hr (fun _ => .error .osError) (fun _ => .error .osError) 48000 (by norm_num)
    (C78_rates_partial _ hr _ (by norm_num) (by norm_num))
  exact ⟨h, h1, h2⟩

example (lg : ℕ → List ℝ × List ℝ) : loadHrirs lg (fun _ => .error .osError) (fun _ => .error .osError) 22050 .default = .error .notImplementedError :=
  C78_default_rates lg _ _ _ (by norm_num)

example (lg : ℕ → List ℝ × List ℝ) : ∃ h, loadHrirs lg (fun _ => .error .osError) (fun fs => .ok ⟨some ⟨[2, 2], [1, 0, 0, 1]⟩, some ⟨[2, 2], [0, 1, 1, 0]⟩,
    some ⟨[1, 2], [0, 1]⟩, some ⟨[2, 1], [1, 2]⟩, none, some fs⟩) 48000 .default = .ok h ∧ h.fs = 48000 := by
  obtain ⟨h, h1, h2, _⟩ := C78_default lg (fun _ => .error .osError) (fun fs => .ok ⟨some ⟨[2, 2], [1, 0, 0, 1]⟩, some ⟨[2, 2], [0, 1, 1, 0]⟩,
    some ⟨[1, 2], [0, 1]⟩, some ⟨[2, 1], [1, 2]⟩, none, some fs⟩) 48000 (by norm_num) _ (.inr ⟨rfl, rfl⟩) _ _ _ _ rfl rfl rfl rfl 2 2 (by norm_num) (by norm_num)
    rfl rfl (.inl rfl) (.inr rfl) rfl rfl (.inr ⟨rfl, rfl⟩)
  exact ⟨h, h1, h2⟩

/-- `C78_fs` for the dummy set. -/
example : ∃ (lg : ℕ → List ℝ × List ℝ) (h : HRIRs), loadHrirs lg (fun _ => .error .osError) (fun _ => .error .osError) 48000 .dummy = .ok h ∧ h.fs = 48000 := by
  obtain ⟨r, hr⟩ := exists_gaussLegendre 16 (by norm_num)
  obtain ⟨h, h1, -⟩ := C78_dummy (fun _ => r) hr (fun _ => .error .osError) (fun _ => .error .osError) 48000 (by norm_num)
    (C78_rates_partial _ hr _ (by norm_num) (by norm_num))
  exact ⟨_, h, h1, C78_fs _ _ _ _ _ h h1⟩

end Verif.Props
