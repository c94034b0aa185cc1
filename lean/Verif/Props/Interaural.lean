import Verif.Model.Interaural
import Verif.Proofs.PyList
import Verif.Props.AmbiDecoders
import Mathlib.Topology.Algebra.InfiniteSum.Real
import Mathlib.Topology.Algebra.InfiniteSum.Order
import Mathlib.Topology.Instances.Real.Lemmas

/-!
C85: interaural level differences; C86: interaural time differences.
-/

namespace Verif.Props
open Real Verif.Process Verif.Sig Verif.Utils

/-! ### C85 -/

/-- Specification: energy of a row. -/
def rowEnergy (x : List ℝ) : ℝ := (x.map fun v => v * v).sum

theorem rowEnergy_nonneg (x : List ℝ) : 0 ≤ rowEnergy x :=
  List.sum_nonneg fun y hy => by obtain ⟨v, _, rfl⟩ := List.mem_map.1 hy; exact mul_self_nonneg v

theorem rowEnergy_pos_iff (x : List ℝ) : 0 < rowEnergy x ↔ ∃ v ∈ x, v ≠ 0 := by
  induction x with
  | nil => simp [rowEnergy]
  | cons a x ih =>
    have h1 : rowEnergy (a :: x) = a * a + rowEnergy x := by simp [rowEnergy]
    have h2 := rowEnergy_nonneg x
    rw [h1]
    constructor
    · intro h
      by_cases ha : a = 0
      · rw [ha, mul_zero, zero_add] at h
        obtain ⟨v, hv, h0⟩ := ih.1 h
        exact ⟨v, List.mem_cons_of_mem _ hv, h0⟩
      · exact ⟨a, List.mem_cons_self, ha⟩
    · rintro ⟨v, hv, h0⟩
      rcases List.mem_cons.1 hv with rfl | hv
      · have := mul_self_pos.2 h0; linarith
      · have := ih.2 ⟨v, hv, h0⟩
        have := mul_self_nonneg a
        linarith

theorem rms_eq (x : List ℝ) : rms x = √(rowEnergy x / x.length) := rfl

theorem length_pos_of_energy {x : List ℝ} (h : 0 < rowEnergy x) : 0 < x.length := by
  obtain ⟨v, hv, _⟩ := (rowEnergy_pos_iff x).1 h
  exact List.length_pos_of_mem hv

theorem rms_pos {x : List ℝ} (h : 0 < rowEnergy x) : 0 < rms x := by
  have := length_pos_of_energy h
  rw [rms_eq]; exact Real.sqrt_pos.2 (by positivity)

theorem rms_zero {x : List ℝ} (h : ¬ 0 < rowEnergy x) : rms x = 0 := by
  rw [rms_eq, le_antisymm (not_lt.1 h) (rowEnergy_nonneg x)]; simp

theorem rms_lt {x y : List ℝ} (hxy : x.length = y.length) (h0 : 0 < x.length) : rms x < rms y ↔ rowEnergy x < rowEnergy y := by
  rw [rms_eq, rms_eq, hxy]
  have : (0 : ℝ) < y.length := by rw [← hxy]; exact_mod_cast h0
  rw [Real.sqrt_lt_sqrt_iff (div_nonneg (rowEnergy_nonneg x) this.le), div_lt_div_iff_of_pos_right this]

/-- What the code computed for direction `i`: the filtered rows and the value. -/
theorem ild_entry (bp : BandPass) (h : HRIRs) (fc : ℝ × ℝ) (todb : Bool) (v : List Level) (hv : ildsFromHrirs bp h fc todb = .ok v) :
    v.length = min h.left.rows.length h.right.rows.length ∧ ∀ (i : ℕ) (x y : List ℝ), h.left.rows[i]? = some x → h.right.rows[i]? = some y →
      ∃ l r, bp.run h.fs fc x = .ok l ∧ bp.run h.fs fc y = .ok r ∧ v[i]? = some (ildOf todb l r) := by
  unfold ildsFromHrirs at hv
  rcases hl : h.left.rows.mapM (bp.run h.fs fc) with e | l
  · rw [hl] at hv; cases hv
  rcases hr : h.right.rows.mapM (bp.run h.fs fc) with e | r
  · rw [hl, hr] at hv; cases hv
  rw [hl, hr] at hv
  have hv : List.zipWith (ildOf todb) l r = v := Except.ok.inj hv
  obtain ⟨l1, l2⟩ := mapM_entries _ _ _ hl
  obtain ⟨r1, r2⟩ := mapM_entries _ _ _ hr
  subst hv
  refine ⟨by rw [List.length_zipWith, l1, r1], fun i x y hx hy => ?_⟩
  obtain ⟨a, ha, ha'⟩ := l2 i x hx
  obtain ⟨b, hb, hb'⟩ := r2 i y hy
  exact ⟨a, b, ha, hb, by rw [List.getElem?_zipWith, ha', hb']⟩

theorem db_ratio {l r : List ℝ} (hlen : l.length = r.length) (hl : 0 < rowEnergy l) (hr : 0 < rowEnergy r) :
    db (rms l / rms r) = 10 * logb 10 (rowEnergy l / rowEnergy r) := by
  have hn : (0 : ℝ) < r.length := by exact_mod_cast length_pos_of_energy hr
  have h1 : rms l / rms r = √(rowEnergy l / rowEnergy r) := by
    rw [rms_eq, rms_eq, hlen, ← Real.sqrt_div (by positivity), div_div_div_cancel_right₀ hn.ne']
  have h2 : 0 < rowEnergy l / rowEnergy r := by positivity
  unfold db
  rw [h1, abs_of_nonneg (Real.sqrt_nonneg _), Real.sqrt_eq_rpow, Real.logb_rpow_eq_mul_logb_of_pos h2]
  simp only [Bool.false_eq_true, if_false]
  ring

/-- C85: every direction gets one value; when neither filtered ear signal of a direction is silent, it is the level difference of the two in dB
(or the difference of the root mean squares), positive exactly when the left one has more energy and zero exactly for equal energies. -/
theorem C85_value (bp : BandPass) (h : HRIRs) (fc : ℝ × ℝ) (todb : Bool) (v : List Level) (hv : ildsFromHrirs bp h fc todb = .ok v) :
    v.length = min h.left.rows.length h.right.rows.length ∧ ∀ (i : ℕ) (x y l r : List ℝ), h.left.rows[i]? = some x →
      h.right.rows[i]? = some y → x.length = y.length → bp.run h.fs fc x = .ok l → bp.run h.fs fc y = .ok r → 0 < rowEnergy l → 0 < rowEnergy r →
      ∃ d, v[i]? = some (.val d) ∧ (0 < d ↔ rowEnergy r < rowEnergy l) ∧ (d = 0 ↔ rowEnergy l = rowEnergy r) ∧
        (todb = true → (10 : ℝ) ^ (d / 10) = rowEnergy l / rowEnergy r) ∧
        (todb = false → d = √(rowEnergy l / x.length) - √(rowEnergy r / x.length)) := by
  obtain ⟨h1, h2⟩ := ild_entry bp h fc todb v hv
  refine ⟨h1, fun i x y l r hx hy hxy hl hr el er => ?_⟩
  obtain ⟨l', r', hl', hr', hvi⟩ := h2 i x y hx hy
  cases Except.ok.inj (hl.symm.trans hl')
  cases Except.ok.inj (hr.symm.trans hr')
  have ll := bp.run_length _ _ _ _ hl
  have lr := bp.run_length _ _ _ _ hr
  have hlen : l.length = r.length := by rw [ll, lr, hxy]
  cases todb with
  | true =>
    have hv2 : ildOf true l r = .val (10 * logb 10 (rowEnergy l / rowEnergy r)) := by
      show levelRatio (rms l) (rms r) = _
      rw [levelRatio, if_neg (rms_pos er).ne', if_neg (rms_pos el).ne', db_ratio hlen el er]
    have hq : 0 < rowEnergy l / rowEnergy r := by positivity
    refine ⟨_, hvi.trans (by rw [hv2]), ?_, ?_, fun _ => ?_, by simp⟩
    · rw [mul_pos_iff_of_pos_left (by norm_num), Real.logb_pos_iff (by norm_num) hq, one_lt_div er]
    · constructor
      · intro h
        have h0 : logb 10 (rowEnergy l / rowEnergy r) = 0 := by linarith
        rw [Real.logb_eq_zero] at h0
        rcases h0 with h | h | h | h | h | h
        · norm_num at h
        · norm_num at h
        · norm_num at h
        · exact absurd h hq.ne'
        · rw [div_eq_one_iff_eq er.ne'] at h; exact h
        · linarith
      · intro h
        rw [h, div_self er.ne', Real.logb_one, mul_zero]
    · rw [mul_div_cancel_left₀ _ (by norm_num : (10 : ℝ) ≠ 0), Real.rpow_logb (by norm_num) (by norm_num) hq]
  | false =>
    refine ⟨rms l - rms r, hvi, ?_, ?_, by simp, fun _ => by rw [rms_eq, rms_eq, ll, lr, hxy]⟩
    · rw [sub_pos, rms_lt hlen.symm (length_pos_of_energy er)]
    · rw [sub_eq_zero]
      have a := rms_lt hlen (length_pos_of_energy el)
      have b := rms_lt hlen.symm (length_pos_of_energy er)
      constructor
      · intro h
        exact le_antisymm (not_lt.1 fun hh => (b.2 hh).ne h.symm) (not_lt.1 fun hh => (a.2 hh).ne h)
      · intro h
        exact le_antisymm (not_lt.1 fun hh => (b.1 hh).ne h.symm) (not_lt.1 fun hh => (a.1 hh).ne h)

/-- Specification: the opposite of a level difference. -/
def Level.opp : Level → Level
  | .val x => .val (-x)
  | .posInf => .negInf
  | .negInf => .posInf
  | .nan => .nan

theorem ildOf_opp (todb : Bool) (l r : List ℝ) : ildOf todb r l = Level.opp (ildOf todb l r) := by
  cases todb with
  | true =>
    show levelRatio (rms r) (rms l) = Level.opp (levelRatio (rms l) (rms r))
    unfold levelRatio
    by_cases hl : rms l = 0 <;> by_cases hr : rms r = 0 <;> simp only [hl, hr, if_true, if_false, Level.opp]
    unfold db
    rw [← inv_div, abs_inv, Real.logb_inv, mul_neg]
  | false =>
    show Level.val (rms r - rms l) = Level.val (-(rms l - rms r))
    rw [neg_sub]

/-- C85: swapping the ears changes the sign of every value. -/
theorem C85_swap (bp : BandPass) (h : HRIRs) (fc : ℝ × ℝ) (todb : Bool) (v : List Level) (hv : ildsFromHrirs bp h fc todb = .ok v) :
    ildsFromHrirs bp { h with left := h.right, right := h.left } fc todb = .ok (v.map Level.opp) := by
  unfold ildsFromHrirs at hv ⊢
  rcases hl : h.left.rows.mapM (bp.run h.fs fc) with e | l
  · rw [hl] at hv; cases hv
  rcases hr : h.right.rows.mapM (bp.run h.fs fc) with e | r
  · rw [hl, hr] at hv; cases hv
  rw [hl, hr] at hv
  have hv : List.zipWith (ildOf todb) l r = v := Except.ok.inj hv
  subst hv
  show Except.ok (List.zipWith (ildOf todb) r l) = Except.ok ((List.zipWith (ildOf todb) l r).map Level.opp)
  congr 1
  rw [List.map_zipWith, List.zipWith_comm]
  congr 1
  funext a b
  exact ildOf_opp todb a b

theorem rowEnergy_scale (g : ℝ) (x : List ℝ) : rowEnergy (x.map (g * ·)) = g ^ 2 * rowEnergy x := by
  unfold rowEnergy
  rw [List.map_map, ← List.sum_map_mul_left]
  congr 1
  refine List.map_congr_left fun a _ => ?_
  simp only [Function.comp]; ring

theorem rms_scale_row (g : ℝ) (x : List ℝ) : rms (x.map (g * ·)) = |g| * rms x := by
  rw [rms_eq, rms_eq, rowEnergy_scale, List.length_map, mul_div_assoc, Real.sqrt_mul (sq_nonneg g), Real.sqrt_sq_eq_abs]

/-- The rows of one ear amplified. -/
noncomputable def amplify (g : ℝ) (a : Sig.Arr2) : Sig.Arr2 := { a with rows := a.rows.map fun x => x.map (g * ·) }

theorem mapM_amplify (F : List ℝ → Py (List ℝ)) (g : ℝ) (hF : ∀ x, F (x.map (g * ·)) = (F x).map fun y => y.map (g * ·)) :
    ∀ (rows ys : List (List ℝ)), rows.mapM F = .ok ys → (rows.map fun x => x.map (g * ·)).mapM F = .ok (ys.map fun y => y.map (g * ·))
  | [], ys, h => by
    have : [] = ys := Except.ok.inj h
    subst this; rfl
  | a :: l, ys, h => by
    rw [List.mapM_cons] at h
    rcases ha : F a with e | b
    · rw [ha] at h; cases h
    rcases hl : l.mapM F with e | bs
    · rw [ha, hl] at h; cases h
    rw [ha, hl] at h
    have h : b :: bs = ys := Except.ok.inj h
    subst h
    rw [List.map_cons, List.mapM_cons, hF, ha, mapM_amplify F g hF l bs hl]
    rfl

/-- C85: with a linear filter, amplifying the ears by `g` and `k` changes every finite dB value by `20 log10 |g/k|`; a common gain changes nothing. -/
theorem C85_gain (bp : BandPass) (h : HRIRs) (fc : ℝ × ℝ) (g k : ℝ) (hg : g ≠ 0) (hk : k ≠ 0)
    (hlin : ∀ (c : ℝ) (x : List ℝ), bp.run h.fs fc (x.map (c * ·)) = (bp.run h.fs fc x).map fun y => y.map (c * ·))
    (v : List Level) (hv : ildsFromHrirs bp h fc true = .ok v) :
    ∃ v', ildsFromHrirs bp { h with left := amplify g h.left, right := amplify k h.right } fc true = .ok v' ∧ v'.length = v.length ∧
      (∀ (i : ℕ) (d : ℝ), v[i]? = some (.val d) → v'[i]? = some (.val (d + 20 * logb 10 |g / k|))) ∧ (g = k → v' = v) := by
  unfold ildsFromHrirs at hv ⊢
  rcases hl : h.left.rows.mapM (bp.run h.fs fc) with e | l
  · rw [hl] at hv; cases hv
  rcases hr : h.right.rows.mapM (bp.run h.fs fc) with e | r
  · rw [hl, hr] at hv; cases hv
  rw [hl, hr] at hv
  have hv : List.zipWith (ildOf true) l r = v := Except.ok.inj hv
  simp only [amplify, mapM_amplify _ g (hlin g) _ _ hl, mapM_amplify _ k (hlin k) _ _ hr]
  have hag := abs_pos.2 hg
  have hak := abs_pos.2 hk
  have key : ∀ a b : List ℝ, ildOf true (a.map (g * ·)) (b.map (k * ·))
      = if rms b = 0 then (if rms a = 0 then .nan else .posInf) else if rms a = 0 then .negInf else .val (db (rms a / rms b) + 20 * logb 10 |g / k|) := by
    intro a b
    show levelRatio (rms (a.map (g * ·))) (rms (b.map (k * ·))) = _
    rw [rms_scale_row, rms_scale_row, levelRatio]
    by_cases hb : rms b = 0
    · by_cases ha : rms a = 0
      · simp [hb, ha]
      · simp [hb, ha, hg]
    · by_cases ha : rms a = 0
      · simp [hb, ha, hk]
      · have hb' : |k| * rms b ≠ 0 := mul_ne_zero hak.ne' hb
        have ha' : |g| * rms a ≠ 0 := mul_ne_zero hag.ne' ha
        simp only [hb, ha, hb', ha', if_false]
        congr 1
        unfold db
        rw [mul_div_mul_comm, abs_mul, Real.logb_mul (by positivity) (by positivity), abs_div, abs_abs, abs_abs, ← abs_div g k]
        simp only [Bool.false_eq_true, if_false]
        ring
  refine ⟨_, rfl, ?_, fun i d hd => ?_, fun hgk => ?_⟩
  · subst hv; simp
  · subst hv
    rw [List.getElem?_zipWith] at hd
    rcases ea : l[i]? with _ | a
    · rw [ea] at hd; simp at hd
    rcases eb : r[i]? with _ | b
    · rw [ea, eb] at hd; simp at hd
    rw [ea, eb] at hd
    have hd : levelRatio (rms a) (rms b) = .val d := Option.some.inj hd
    rw [List.getElem?_zipWith, List.getElem?_map, List.getElem?_map, ea, eb]
    show some (ildOf true (a.map (g * ·)) (b.map (k * ·))) = _
    rw [key]
    unfold levelRatio at hd
    by_cases hb : rms b = 0
    · by_cases ha : rms a = 0 <;> simp [hb, ha] at hd
    · by_cases ha : rms a = 0
      · simp [hb, ha] at hd
      · simp only [hb, ha, if_false] at hd ⊢
        cases hd
        rfl
  · subst hv hgk
    show List.zipWith (ildOf true) (l.map fun x => x.map (g * ·)) (r.map fun x => x.map (g * ·)) = _
    rw [List.zipWith_map]
    congr 1
    funext a b
    rw [key, div_self hg, abs_one, Real.logb_one, mul_zero, add_zero]
    rfl

/-- C85: a silent ear (after filtering) gives `inf` or `-inf` in dB, two silent ears give `nan`. -/
theorem C85_silent (bp : BandPass) (h : HRIRs) (fc : ℝ × ℝ) (v : List Level) (hv : ildsFromHrirs bp h fc true = .ok v) (i : ℕ) (x y l r : List ℝ)
    (hx : h.left.rows[i]? = some x) (hy : h.right.rows[i]? = some y) (hl : bp.run h.fs fc x = .ok l) (hr : bp.run h.fs fc y = .ok r) :
    ((∃ a ∈ l, a ≠ 0) → (∀ b ∈ r, b = 0) → v[i]? = some .posInf) ∧ ((∀ a ∈ l, a = 0) → (∃ b ∈ r, b ≠ 0) → v[i]? = some .negInf)
      ∧ ((∀ a ∈ l, a = 0) → (∀ b ∈ r, b = 0) → v[i]? = some .nan) := by
  obtain ⟨_, h2⟩ := ild_entry bp h fc true v hv
  obtain ⟨l', r', hl', hr', hvi⟩ := h2 i x y hx hy
  cases Except.ok.inj (hl.symm.trans hl')
  cases Except.ok.inj (hr.symm.trans hr')
  have hz : ∀ z : List ℝ, (∀ a ∈ z, a = 0) → rms z = 0 := fun z hz => rms_zero fun h => by
    obtain ⟨a, ha, h0⟩ := (rowEnergy_pos_iff z).1 h
    exact h0 (hz a ha)
  have hp : ∀ z : List ℝ, (∃ a ∈ z, a ≠ 0) → rms z ≠ 0 := fun z hz => (rms_pos ((rowEnergy_pos_iff z).2 hz)).ne'
  rw [hvi]
  show (_ → _ → some (levelRatio _ _) = _) ∧ (_ → _ → some (levelRatio _ _) = _) ∧ (_ → _ → some (levelRatio _ _) = _)
  unfold levelRatio
  refine ⟨fun a b => ?_, fun a b => ?_, fun a b => ?_⟩
  · rw [if_pos (hz r b), if_neg (hp l a)]
  · rw [if_neg (hp r b), if_pos (hz l a)]
  · rw [if_pos (hz r b), if_pos (hz l a)]

/-- A filter that passes everything: the hypotheses on the filter can be met. -/
def passAll : BandPass := ⟨fun _ _ x => .ok x, fun _ _ x y h => by cases h; rfl⟩

/-- A set with one direction, left ear twice as loud. -/
def loudLeft : HRIRs := ⟨⟨2, [[2, 0]]⟩, ⟨2, [[0, 1]]⟩, [0], [0], 48000, 1, 2⟩

/-- `C85_swap` and `C85_gain` on this set. -/
example : ildsFromHrirs passAll { loudLeft with left := loudLeft.right, right := loudLeft.left } (1000, 20000) true = .ok [Level.opp (ildOf true [2, 0] [0, 1])] :=
  C85_swap passAll loudLeft (1000, 20000) true [ildOf true [2, 0] [0, 1]] rfl

example : ildsFromHrirs passAll { loudLeft with left := amplify 3 loudLeft.left, right := amplify 3 loudLeft.right } (1000, 20000) true
    = .ok [ildOf true [2, 0] [0, 1]] := by
  obtain ⟨v, h1, -, -, h2⟩ := C85_gain passAll loudLeft (1000, 20000) 3 3 (by norm_num) (by norm_num) (fun _ _ => rfl) [ildOf true [2, 0] [0, 1]] rfl
  rw [h1, h2 rfl]

example : ∃ d, ildsFromHrirs passAll loudLeft (1000, 20000) true = .ok [.val d] ∧ 0 < d ∧ (10 : ℝ) ^ (d / 10) = 4 := by
  have hv : ildsFromHrirs passAll loudLeft (1000, 20000) true = .ok [ildOf true [2, 0] [0, 1]] := rfl
  obtain ⟨_, h⟩ := C85_value _ _ _ _ _ hv
  obtain ⟨d, h1, h2, _, h4, _⟩ := h 0 [2, 0] [0, 1] [2, 0] [0, 1] rfl rfl rfl rfl rfl (by norm_num [rowEnergy]) (by norm_num [rowEnergy])
  have h1 : ildOf true [2, 0] [0, 1] = .val d := by simpa using h1
  refine ⟨d, by rw [hv, h1], h2.2 (by norm_num [rowEnergy]), ?_⟩
  rw [h4 rfl]; norm_num [rowEnergy]

/-! ### C86 -/

/-- Specification: sample `i` of a row that is continued by zeros on both sides. -/
def padded (x : List ℝ) (i : ℤ) : ℝ := if 0 ≤ i ∧ i < x.length then x.getD i.toNat 0 else 0

theorem sampleAt_eq (x : List ℝ) (i : ℤ) : sampleAt x i = padded x i := by
  unfold sampleAt padded
  by_cases h : 0 ≤ i
  · by_cases h2 : i < x.length
    · rw [if_pos h, if_pos ⟨h, h2⟩]
    · rw [if_pos h, if_neg (fun hh => h2 hh.2), List.getD_eq_getElem?_getD, List.getElem?_eq_none (by omega)]; rfl
  · rw [if_neg h, if_neg (fun hh => h hh.1)]

theorem padded_sq (x : List ℝ) (i : ℤ) : padded (x.map (· ^ 2)) i = padded x i ^ 2 := by
  unfold padded
  rw [List.length_map]
  split_ifs with h
  · rw [List.getD_eq_getElem?_getD, List.getElem?_map, List.getD_eq_getElem?_getD]
    rcases x[i.toNat]? with _ | a <;> simp
  · simp

theorem padded_support (x : List ℝ) (i : ℤ) (h : padded x i ≠ 0) : i ∈ Finset.Ico (0 : ℤ) x.length := by
  unfold padded at h
  rw [Finset.mem_Ico]
  by_contra hc
  rw [if_neg hc] at h
  exact h rfl

/-- Specification: cross-correlation of the energies of two rows at a lag, over all time. -/
noncomputable def energyCorr (x y : List ℝ) (k : ℤ) : ℝ := ∑' m : ℤ, padded x (m + k) ^ 2 * padded y m ^ 2

theorem corrAt_eq (x y : List ℝ) (k : ℤ) : corrAt (x.map (· ^ 2)) (y.map (· ^ 2)) k = energyCorr x y k := by
  unfold corrAt energyCorr
  rw [tsum_eq_sum (s := (Finset.range y.length).map ⟨fun m : ℕ => (m : ℤ), Nat.cast_injective⟩), Finset.sum_map, List.length_map]
  · refine Finset.sum_congr rfl fun m hm => ?_
    rw [sampleAt_eq, padded_sq]
    congr 1
    show _ = padded y (m : ℤ) ^ 2
    rw [← padded_sq y m]
    unfold padded
    rw [if_pos ⟨by simp, by simpa using hm⟩]; rfl
  · intro m hm
    have : padded y m = 0 := by
      by_contra h
      have := padded_support y m h
      rw [Finset.mem_Ico] at this
      exact hm (Finset.mem_map.2 ⟨m.toNat, by simp; omega, by simp; omega⟩)
    rw [this]; simp

theorem fin_summable {f : ℤ → ℝ} {s : Finset ℤ} (h : ∀ m, f m ≠ 0 → m ∈ s) : Summable f :=
  summable_of_ne_finset_zero (s := s) fun m hm => by_contra fun h0 => hm (h m h0)

/-- The argument of the maximum. -/
theorem itd_of_unique (fs : ℝ) (l r : List ℝ) (hlen : l.length = r.length) (hne : l ≠ []) (k0 : ℤ) (hlo : -((l.length / 2 : ℕ) : ℤ) ≤ k0)
    (hhi : k0 ≤ l.length - 1 - (l.length / 2 : ℕ))
    (hmax : ∀ k : ℤ, -((l.length / 2 : ℕ) : ℤ) ≤ k → k ≤ l.length - 1 - (l.length / 2 : ℕ) → k ≠ k0 → energyCorr l r k < energyCorr l r k0) :
    itdOf fs l r = .ok (-(k0 : ℝ) / fs) := by
  have hr : r ≠ [] := fun h => hne (List.length_eq_zero_iff.1 (by rw [hlen, h]; rfl))
  unfold itdOf correlateSame
  rw [if_neg (by simp [hne, hr])]
  show (npArgmax _).map _ = _
  simp only [corrAt_eq, List.length_map]
  set c := (List.range l.length).map fun i : ℕ => energyCorr l r ((i : ℤ) - ((l.length / 2 : ℕ) : ℤ)) with hc
  have hcl : c.length = l.length := by rw [hc]; simp
  obtain ⟨i, v, h1, h2, h3, _⟩ := npArgmax_spec c (fun h => hne (List.length_eq_zero_iff.1 (by rw [← hcl, h]; rfl)))
  rw [h1]
  have hget : ∀ j : ℕ, j < l.length → c[j]? = some (energyCorr l r ((j : ℤ) - ((l.length / 2 : ℕ) : ℤ))) := by
    intro j hj
    rw [hc, List.getElem?_map, List.getElem?_range hj]; rfl
  have hi : i < l.length := by
    have := (List.getElem?_eq_some_iff.1 h2).1
    omega
  have hv := (hget i hi).symm.trans h2
  have hv := Option.some.inj hv
  obtain ⟨j, hj⟩ : ∃ j : ℕ, (j : ℤ) = k0 + (l.length / 2 : ℕ) := ⟨(k0 + (l.length / 2 : ℕ)).toNat, by omega⟩
  have hj2 : j < l.length := by omega
  have hle := h3 _ (List.mem_of_getElem? (hget j hj2))
  have hjk : (j : ℤ) - ((l.length / 2 : ℕ) : ℤ) = k0 := by omega
  rw [hjk, ← hv] at hle
  have hik : (i : ℤ) - ((l.length / 2 : ℕ) : ℤ) = k0 := by
    by_contra hh
    exact absurd (hmax _ (by omega) (by omega) hh) (not_lt.2 hle)
  show Except.ok _ = Except.ok _
  congr 2
  rw [← hik]
  push_cast
  rfl

/-- The energy of a row that is not silent correlates with itself best at lag zero. -/
theorem autocorr_lt (x : List ℝ) (hx : ∃ v ∈ x, v ≠ 0) (j : ℤ) (hj : j ≠ 0) :
    ∑' m : ℤ, padded x (m + j) ^ 2 * padded x m ^ 2 < ∑' m : ℤ, padded x m ^ 2 * padded x m ^ 2 := by
  set E : ℤ → ℝ := fun m => padded x m ^ 2 with hE
  have hsup : ∀ m, E m ≠ 0 → m ∈ Finset.Ico (0 : ℤ) x.length := fun m hm => padded_support x m fun h => hm (by rw [hE]; simp [h])
  have hs1 : Summable fun m => E m * E m := fin_summable fun m hm => hsup m (left_ne_zero_of_mul hm)
  have hs2 : Summable fun m => E (m + j) * E m := fin_summable fun m hm => hsup m (right_ne_zero_of_mul hm)
  have hs3 : Summable fun m => E (m + j) * E (m + j) := (Equiv.addRight j).summable_iff.2 hs1
  have h3 : ∑' m, E (m + j) * E (m + j) = ∑' m, E m * E m := (Equiv.addRight j).tsum_eq fun m => E m * E m
  have hs4 : Summable fun m => (E (m + j) - E m) ^ 2 := by
    have := (hs3.add hs1).sub (hs2.mul_left 2)
    refine this.congr fun m => ?_
    ring
  have h4 : ∑' m, (E (m + j) - E m) ^ 2 = 2 * (∑' m, E m * E m - ∑' m, E (m + j) * E m) := by
    have e : (fun m => (E (m + j) - E m) ^ 2) = fun m => (E (m + j) * E (m + j) + E m * E m) - 2 * (E (m + j) * E m) := by
      funext m; ring
    rw [e, (hs3.add hs1).tsum_sub (hs2.mul_left 2), hs3.tsum_add hs1, tsum_mul_left, h3]; ring
  have hpos : 0 < ∑' m, (E (m + j) - E m) ^ 2 := by
    obtain ⟨m, hm⟩ : ∃ m, E (m + j) ≠ E m := by
      by_contra hcon
      push Not at hcon
      -- periodic with finite support
      have hper : ∀ (t : ℕ) (m : ℤ), E (m + t * j) = E m := by
        intro t
        induction t with
        | zero => intro m; simp
        | succ t ih => intro m; rw [← ih m, ← hcon (m + t * j)]; push_cast; ring_nf
      obtain ⟨v, hv, h0⟩ := hx
      obtain ⟨i, hi, hiv⟩ := List.getElem_of_mem hv
      have hEi : E i ≠ 0 := by
        rw [hE]
        simp only [padded, ne_eq]
        rw [if_pos ⟨by simp, by simpa using hi⟩]
        rw [List.getD_eq_getElem?_getD]
        simp [hi, hiv, h0]
      have hbig := hper (x.length + 1) i
      have : i + ((x.length + 1 : ℕ) : ℤ) * j ∈ Finset.Ico (0 : ℤ) x.length := hsup _ (by rw [hbig]; exact hEi)
      rw [Finset.mem_Ico] at this
      rcases lt_or_gt_of_ne hj with h | h
      · have : ((x.length + 1 : ℕ) : ℤ) * j ≤ -((x.length + 1 : ℕ) : ℤ) := by nlinarith
        push_cast at *
        omega
      · have : ((x.length + 1 : ℕ) : ℤ) ≤ ((x.length + 1 : ℕ) : ℤ) * j := by nlinarith
        push_cast at *
        omega
    exact hs4.tsum_pos (fun m => sq_nonneg _) m (by have := sub_ne_zero.2 hm; positivity)
  have : ∑' m, E (m + j) * E m < ∑' m, E m * E m := by linarith
  exact this

theorem energyCorr_delayed {x y : List ℝ} {d : ℤ} (h : ∀ m, padded y m = padded x (m - d)) (k : ℤ) :
    energyCorr x y k = ∑' m : ℤ, padded x (m + (k + d)) ^ 2 * padded x m ^ 2 := by
  unfold energyCorr
  rw [← (Equiv.addRight d).tsum_eq fun m : ℤ => padded x (m + k) ^ 2 * padded y m ^ 2]
  refine tsum_congr fun m => ?_
  simp only [Equiv.coe_addRight, h]
  rw [add_sub_cancel_right, show m + d + k = m + (k + d) by ring]

/-- What `itds_from_hrirs` does with one direction. -/
theorem itd_entry (rs : Resampler) (bp : BandPass) (h : HRIRs) (fc : ℝ × ℝ) (up : ℝ) (v : List ℝ) (hv : itdsFromHrirs rs bp h fc up = .ok v) :
    v.length = min h.left.rows.length h.right.rows.length ∧ ∀ (i : ℕ) (x y l r : List ℝ), h.left.rows[i]? = some x → h.right.rows[i]? = some y →
      bp.run (up * h.fs) fc (rs.run h.fs (up * h.fs) x) = .ok l → bp.run (up * h.fs) fc (rs.run h.fs (up * h.fs) y) = .ok r →
      ∃ d, itdOf (up * h.fs) l r = .ok d ∧ v[i]? = some d := by
  unfold itdsFromHrirs at hv
  dsimp only at hv
  rcases hl : (h.left.rows.map (rs.run h.fs (up * h.fs))).mapM (bp.run (up * h.fs) fc) with e | l
  · rw [hl] at hv; cases hv
  rcases hr : (h.right.rows.map (rs.run h.fs (up * h.fs))).mapM (bp.run (up * h.fs) fc) with e | r
  · rw [hl, hr] at hv; cases hv
  rw [hl, hr] at hv
  have hv : (l.zip r).mapM (fun p : List ℝ × List ℝ => itdOf (up * h.fs) p.1 p.2) = .ok v := hv
  obtain ⟨l1, l2⟩ := mapM_entries _ _ _ hl
  obtain ⟨r1, r2⟩ := mapM_entries _ _ _ hr
  obtain ⟨v1, v2⟩ := mapM_entries _ _ _ hv
  rw [List.length_map] at l1 r1
  refine ⟨by rw [v1, List.length_zip, l1, r1], fun i x y a b hx hy ha hb => ?_⟩
  obtain ⟨a', ha', hla⟩ := l2 i _ (by rw [List.getElem?_map, hx]; rfl)
  obtain ⟨b', hb', hrb⟩ := r2 i _ (by rw [List.getElem?_map, hy]; rfl)
  cases Except.ok.inj (ha.symm.trans ha')
  cases Except.ok.inj (hb.symm.trans hb')
  exact v2 i (a, b) (List.getElem?_zip_eq_some.2 ⟨hla, hrb⟩)

/-- C86: if the (resampled, filtered) response of the right ear is that of the left ear `d` samples later – or earlier, for negative `d` –, and not
silent, then the returned time difference is exactly `d` samples: positive when the left ear comes first. -/
theorem C86_delay (rs : Resampler) (bp : BandPass) (h : HRIRs) (fc : ℝ × ℝ) (up : ℝ) (v : List ℝ) (hv : itdsFromHrirs rs bp h fc up = .ok v)
    (i : ℕ) (x y l r : List ℝ) (hx : h.left.rows[i]? = some x) (hy : h.right.rows[i]? = some y)
    (hl : bp.run (up * h.fs) fc (rs.run h.fs (up * h.fs) x) = .ok l) (hr : bp.run (up * h.fs) fc (rs.run h.fs (up * h.fs) y) = .ok r)
    (hlen : l.length = r.length) (hne : ∃ a ∈ l, a ≠ 0) (d : ℤ) (hd : ∀ m, padded r m = padded l (m - d)) (hdlt : |d| < (l.length + 1 : ℕ) / 2) :
    v[i]? = some (d / (up * h.fs)) := by
  obtain ⟨_, h2⟩ := itd_entry rs bp h fc up v hv
  obtain ⟨t, ht, hvi⟩ := h2 i x y l r hx hy hl hr
  rw [hvi]
  have hb := abs_lt.1 hdlt
  have hnil : l ≠ [] := fun h0 => by obtain ⟨a, ha, _⟩ := hne; rw [h0] at ha; simp at ha
  have key := itd_of_unique (up * h.fs) l r hlen hnil (-d) (by push_cast at hb; omega) (by push_cast at hb ⊢; omega) (fun k _ _ hk => by
    rw [energyCorr_delayed hd, energyCorr_delayed hd, neg_add_cancel]
    simpa using autocorr_lt l hne (k + d) (by omega))
  rw [ht] at key
  rw [Except.ok.inj key]
  push_cast
  rw [neg_neg]

theorem energyCorr_swap (x y : List ℝ) (k : ℤ) : energyCorr y x (-k) = energyCorr x y k := by
  unfold energyCorr
  rw [← (Equiv.addRight k).tsum_eq fun m : ℤ => padded y (m + -k) ^ 2 * padded x m ^ 2]
  refine tsum_congr fun m => ?_
  simp only [Equiv.coe_addRight]
  rw [add_neg_cancel_right, mul_comm]

/-- C86: with one best lag among all lags up to half the length, swapping the ears changes the sign of the time difference. -/
theorem C86_swap (rs : Resampler) (bp : BandPass) (h : HRIRs) (fc : ℝ × ℝ) (up : ℝ) (v w : List ℝ) (hv : itdsFromHrirs rs bp h fc up = .ok v)
    (hw : itdsFromHrirs rs bp { h with left := h.right, right := h.left } fc up = .ok w)
    (i : ℕ) (x y l r : List ℝ) (hx : h.left.rows[i]? = some x) (hy : h.right.rows[i]? = some y)
    (hl : bp.run (up * h.fs) fc (rs.run h.fs (up * h.fs) x) = .ok l) (hr : bp.run (up * h.fs) fc (rs.run h.fs (up * h.fs) y) = .ok r)
    (hlen : l.length = r.length) (k0 : ℤ) (hk0 : |k0| < (l.length + 1 : ℕ) / 2)
    (hmax : ∀ k : ℤ, |k| ≤ (l.length : ℤ) / 2 → k ≠ k0 → energyCorr l r k < energyCorr l r k0) :
    ∃ d, v[i]? = some d ∧ w[i]? = some (-d) := by
  obtain ⟨_, h2⟩ := itd_entry rs bp h fc up v hv
  obtain ⟨t, ht, hvi⟩ := h2 i x y l r hx hy hl hr
  obtain ⟨_, h3⟩ := itd_entry rs bp { h with left := h.right, right := h.left } fc up w hw
  obtain ⟨u, hu, hwi⟩ := h3 i y x r l hy hx hr hl
  have hb := abs_lt.1 hk0
  have hpos : 0 < l.length := by have := abs_nonneg k0; omega
  have hnil : l ≠ [] := List.ne_nil_of_length_pos hpos
  have hnil' : r ≠ [] := List.ne_nil_of_length_pos (hlen ▸ hpos)
  push_cast at hb
  have k1 := itd_of_unique (up * h.fs) l r hlen hnil k0 (by omega) (by omega) (fun k ha hb' hk => hmax k (abs_le.2 ⟨by omega, by omega⟩) hk)
  have k2 := itd_of_unique (up * h.fs) r l hlen.symm hnil' (-k0) (by omega) (by omega) (fun k ha hb' hk => by
    rw [energyCorr_swap]
    have := hmax (-k) (abs_le.2 ⟨by omega, by omega⟩) (by omega)
    rwa [← energyCorr_swap, neg_neg] at this)
  rw [ht] at k1
  have k2 : itdOf (up * h.fs) r l = _ := k2
  have hu : itdOf (up * h.fs) r l = _ := hu
  rw [hu] at k2
  refine ⟨t, hvi, ?_⟩
  rw [hwi, Except.ok.inj k1, Except.ok.inj k2]
  push_cast
  congr 1
  ring

/-- C86: no time difference exceeds half the (resampled) length. -/
theorem C86_bound (rs : Resampler) (bp : BandPass) (h : HRIRs) (fc : ℝ × ℝ) (up : ℝ) (hfs : 0 < up * h.fs) (v : List ℝ)
    (hv : itdsFromHrirs rs bp h fc up = .ok v) (i : ℕ) (x y l r : List ℝ) (hx : h.left.rows[i]? = some x) (hy : h.right.rows[i]? = some y)
    (hl : bp.run (up * h.fs) fc (rs.run h.fs (up * h.fs) x) = .ok l) (hr : bp.run (up * h.fs) fc (rs.run h.fs (up * h.fs) y) = .ok r) :
    ∃ d, v[i]? = some d ∧ |d| ≤ ((l.length / 2 : ℕ) : ℝ) / (up * h.fs) := by
  obtain ⟨_, h2⟩ := itd_entry rs bp h fc up v hv
  obtain ⟨t, ht, hvi⟩ := h2 i x y l r hx hy hl hr
  refine ⟨t, hvi, ?_⟩
  unfold itdOf correlateSame at ht
  by_cases hnil : (l.map (· ^ 2)) = [] ∨ (r.map (· ^ 2)) = []
  · rw [if_pos hnil] at ht; cases ht
  rw [if_neg hnil] at ht
  set c := (List.range (l.map (· ^ 2)).length).map fun i : ℕ => corrAt (l.map (· ^ 2)) (r.map (· ^ 2)) ((i : ℤ) - (((l.map (· ^ 2)).length / 2 : ℕ) : ℤ)) with hc
  have ht : (npArgmax c).map (fun i : ℕ => -((i : ℝ) - ((l.length / 2 : ℕ) : ℝ)) / (up * h.fs)) = .ok t := ht
  have hcl : c.length = l.length := by rw [hc]; simp
  have hl0 : l ≠ [] := fun h0 => hnil (.inl (by rw [h0]; rfl))
  obtain ⟨j, w, h1, h2, _⟩ := npArgmax_spec c (fun h => hl0 (List.length_eq_zero_iff.1 (by rw [← hcl, h]; rfl)))
  have hj : j < l.length := by have := (List.getElem?_eq_some_iff.1 h2).1; omega
  rw [h1] at ht
  rw [← Except.ok.inj ht, abs_div, abs_of_pos hfs, div_le_div_iff_of_pos_right hfs, abs_neg, abs_le]
  have h3 : (l.length : ℤ) - 1 ≤ 2 * ((l.length / 2 : ℕ) : ℤ) := by omega
  have h4 : (j : ℤ) ≤ 2 * ((l.length / 2 : ℕ) : ℤ) := by omega
  have h5 : (j : ℝ) ≤ 2 * ((l.length / 2 : ℕ) : ℝ) := by exact_mod_cast h4
  have h6 : (0 : ℝ) ≤ j := by positivity
  constructor <;> linarith

/-- C86: a direction with a silent ear gets the largest possible time difference, not zero. -/
theorem C86_silent (rs : Resampler) (bp : BandPass) (h : HRIRs) (fc : ℝ × ℝ) (up : ℝ) (v : List ℝ) (hv : itdsFromHrirs rs bp h fc up = .ok v)
    (i : ℕ) (x y l r : List ℝ) (hx : h.left.rows[i]? = some x) (hy : h.right.rows[i]? = some y)
    (hl : bp.run (up * h.fs) fc (rs.run h.fs (up * h.fs) x) = .ok l) (hr : bp.run (up * h.fs) fc (rs.run h.fs (up * h.fs) y) = .ok r)
    (hlen : l.length = r.length) (hne : l ≠ []) (hs : ∀ b ∈ r, b = 0) : v[i]? = some (((l.length / 2 : ℕ) : ℝ) / (up * h.fs)) := by
  obtain ⟨_, h2⟩ := itd_entry rs bp h fc up v hv
  obtain ⟨t, ht, hvi⟩ := h2 i x y l r hx hy hl hr
  rw [hvi]
  have hr0 : r ≠ [] := fun h => hne (List.length_eq_zero_iff.1 (by rw [hlen, h]; rfl))
  have hpad : ∀ m, padded r m = 0 := by
    intro m
    unfold padded
    split_ifs with hm
    · rw [List.getD_eq_getElem?_getD]
      rcases e : r[m.toNat]? with _ | a
      · rfl
      · exact hs a (List.mem_of_getElem? e)
    · rfl
  unfold itdOf correlateSame at ht
  rw [if_neg (by simp [hne, hr0])] at ht
  have ht : (npArgmax _).map _ = Except.ok t := ht
  simp only [corrAt_eq, energyCorr, hpad, List.length_map] at ht
  obtain ⟨c, hc, ht⟩ : ∃ c : List ℝ, c = List.replicate l.length 0 ∧
      (npArgmax c).map (fun i : ℕ => -((i : ℝ) - ((l.length / 2 : ℕ) : ℝ)) / (up * h.fs)) = Except.ok t :=
    ⟨_, by simp, ht⟩
  obtain ⟨j, w, h1, h2, _, h4⟩ := npArgmax_spec c (by rw [hc]; intro h; exact hne (List.length_eq_zero_iff.1 (by simpa using congrArg List.length h)))
  have hj : j = 0 := by
    by_contra hj
    have hw : w = 0 := by
      rw [hc] at h2
      exact List.eq_of_mem_replicate (List.mem_of_getElem? h2)
    have hpos : 0 < l.length := List.length_pos_of_ne_nil hne
    have := h4 0 0 (by omega) (by rw [hc, List.getElem?_replicate]; simp [hpos])
    rw [hw] at this
    exact lt_irrefl _ this
  rw [h1, hj] at ht
  rw [← Except.ok.inj ht]
  simp

/-- A resampler that changes nothing. -/
def keepRate : Resampler := ⟨fun _ _ n => n, fun _ _ x => x, fun _ _ _ => rfl⟩

/-- A set with one direction, right ear one sample later and turned around in sign. -/
def lateRight : HRIRs := ⟨⟨4, [[1, 2, 0, 0]]⟩, ⟨4, [[0, 1, 2, 0]]⟩, [0], [0], 48000, 1, 4⟩

theorem lateRight_delay (m : ℤ) : padded [0, 1, 2, 0] m = padded [1, 2, 0, 0] (m - 1) := by
  unfold padded
  by_cases h : 0 ≤ m ∧ m ≤ 4
  · obtain ⟨h1, h2⟩ := h
    interval_cases m <;> norm_num <;> rfl
  · rw [if_neg (by simp; omega), if_neg (by simp; omega)]

theorem lateRight_max (k : ℤ) (hk : k ≠ -1) : energyCorr [1, 2, 0, 0] [0, 1, 2, 0] k < energyCorr [1, 2, 0, 0] [0, 1, 2, 0] (-1) := by
  rw [energyCorr_delayed lateRight_delay, energyCorr_delayed lateRight_delay]
  simpa using autocorr_lt [1, 2, 0, 0] ⟨1, by simp, by norm_num⟩ (k + 1) (by omega)

theorem lateRight_ok : itdsFromHrirs keepRate passAll lateRight (100, 1500) 1 = .ok [1 / 48000] := by
  have hv : itdsFromHrirs keepRate passAll lateRight (100, 1500) 1 = [([1, 2, 0, 0], [0, 1, 2, 0])].mapM (fun p : List ℝ × List ℝ => itdOf (1 * 48000) p.1 p.2) := rfl
  rw [hv, List.mapM_cons]
  have := itd_of_unique (1 * 48000) [1, 2, 0, 0] [0, 1, 2, 0] rfl (by simp) (-1) (by simp) (by simp) (fun k _ _ hk => lateRight_max k hk)
  rw [this]
  show Except.ok [_] = _
  norm_num

/-- The hypotheses of `C86_delay`, `C86_bound` and `C86_swap` are met. -/
example : ∃ v, itdsFromHrirs keepRate passAll lateRight (100, 1500) 1 = .ok v ∧ v[0]? = some (1 / 48000) := by
  refine ⟨_, lateRight_ok, ?_⟩
  have := C86_delay keepRate passAll lateRight (100, 1500) 1 _ lateRight_ok 0 [1, 2, 0, 0] [0, 1, 2, 0] [1, 2, 0, 0] [0, 1, 2, 0] rfl rfl rfl rfl rfl
    ⟨1, by simp, by norm_num⟩ 1 lateRight_delay (by norm_num)
  rw [this]
  norm_num [lateRight]

example : ∃ d, ([1 / 48000] : List ℝ)[0]? = some d ∧ |d| ≤ ((([1, 2, 0, 0] : List ℝ).length / 2 : ℕ) : ℝ) / (1 * lateRight.fs) :=
  C86_bound keepRate passAll lateRight (100, 1500) 1 (by norm_num [lateRight]) _ lateRight_ok 0 [1, 2, 0, 0] [0, 1, 2, 0] [1, 2, 0, 0] [0, 1, 2, 0] rfl rfl rfl rfl

example (w : List ℝ) (hw : itdsFromHrirs keepRate passAll { lateRight with left := lateRight.right, right := lateRight.left } (100, 1500) 1 = .ok w) :
    w[(0 : ℕ)]? = some (-(1 / 48000)) := by
  obtain ⟨d, h1, h2⟩ := C86_swap keepRate passAll lateRight (100, 1500) 1 _ w lateRight_ok hw 0 [1, 2, 0, 0] [0, 1, 2, 0] [1, 2, 0, 0] [0, 1, 2, 0] rfl rfl rfl rfl rfl
    (-1) (by simp) (fun k _ hk => lateRight_max k hk)
  rw [h2]
  simp only [List.getElem?_cons_zero, Option.some.injEq] at h1
  rw [h1]

/-- There is such a `w`. -/
example : itdsFromHrirs keepRate passAll { lateRight with left := lateRight.right, right := lateRight.left } (100, 1500) 1 = .ok [-1 / 48000] := by
  have hv : itdsFromHrirs keepRate passAll { lateRight with left := lateRight.right, right := lateRight.left } (100, 1500) 1
    = [([0, 1, 2, 0], [1, 2, 0, 0])].mapM (fun p : List ℝ × List ℝ => itdOf (1 * 48000) p.1 p.2) := rfl
  have hd : ∀ m : ℤ, padded [1, 2, 0, 0] m = padded [0, 1, 2, 0] (m - -1) := fun m => by rw [lateRight_delay]; congr 1; ring
  rw [hv, List.mapM_cons]
  have := itd_of_unique (1 * 48000) [0, 1, 2, 0] [1, 2, 0, 0] rfl (by simp) 1 (by simp) (by simp) (fun k _ _ hk => by
    rw [energyCorr_delayed hd, energyCorr_delayed hd]
    simpa using autocorr_lt [0, 1, 2, 0] ⟨1, by simp, by norm_num⟩ (k + -1) (by omega))
  rw [this]
  show Except.ok [_] = _
  norm_num

end Verif.Props
