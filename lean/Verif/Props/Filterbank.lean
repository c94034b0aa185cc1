import Mathlib.Analysis.SpecialFunctions.Pow.NNReal
import Mathlib.Tactic
import Verif.Model.Process

/-!
C54: `frac_octave_filterbank` is a partition of unity.

The code only asserts `overlap ≤ 0.5`; the theorems show that this suffices for *every* number of bands per octave `n ≥ 1`: rounding never makes two transitions
overlap, nor does the first one start below bin zero.  A last transition beyond the frequency axis raises `ValueError`.
-/

namespace Verif.Props

open Real Verif.Process

/-! ### Flanks -/

theorem sin_iter_range (slope : ℕ) (x : ℝ) (hx : -1 ≤ x ∧ x ≤ 1) :
    -1 ≤ (fun x : ℝ => sin (π / 2 * x))^[slope] x ∧ (fun x : ℝ => sin (π / 2 * x))^[slope] x ≤ 1 := by
  induction slope generalizing x with
  | zero => simpa using hx
  | succ s ih =>
      rw [Function.iterate_succ_apply]
      exact ih _ ⟨neg_one_le_sin _, sin_le_one _⟩

theorem sin_iter_one (slope : ℕ) : (fun x : ℝ => sin (π / 2 * x))^[slope] 1 = 1 := by
  induction slope with
  | zero => rfl
  | succ s ih => rw [Function.iterate_succ_apply]; simpa using ih

theorem phi_range (P p : ℤ) (slope : ℕ) (hP : 0 ≤ P) (h1 : -P ≤ p) (h2 : p ≤ P) : -1 ≤ phi P slope p ∧ phi P slope p ≤ 1 := by
  apply sin_iter_range
  split
  · norm_num
  · have hpos : (0 : ℝ) < P := by exact_mod_cast lt_of_le_of_ne hP (by omega)
    have h1' : -(P : ℝ) ≤ p := by exact_mod_cast h1
    have h2' : (p : ℝ) ≤ P := by exact_mod_cast h2
    rw [le_div_iff₀ hpos, div_le_iff₀ hpos]
    constructor <;> linarith

theorem phi_top (P p : ℤ) (slope : ℕ) (h : P = 0 ∨ p = P) : phi P slope p = 1 := by
  unfold phi
  by_cases hP : P = 0
  · rw [if_pos hP, sin_iter_one]
  · rw [if_neg hP, h.resolve_left hP, div_self (by exact_mod_cast hP), sin_iter_one]

theorem flank_sq (P p : ℤ) (slope : ℕ) : flankDown P slope p ^ 2 + flankUp P slope p ^ 2 = 1 := by
  rw [flankDown, flankUp]; exact cos_sq_add_sin_sq _

theorem flank_range (P p : ℤ) (slope : ℕ) (hP : 0 ≤ P) (h1 : -P ≤ p) (h2 : p ≤ P) :
    (0 ≤ flankDown P slope p ∧ flankDown P slope p ≤ 1) ∧ (0 ≤ flankUp P slope p ∧ flankUp P slope p ≤ 1) := by
  obtain ⟨h3, h4⟩ := phi_range P p slope hP h1 h2
  have e1 : 0 ≤ π / 2 * (0.5 * (phi P slope p + 1)) := by
    apply mul_nonneg (by positivity); norm_num; linarith
  have e2 : π / 2 * (0.5 * (phi P slope p + 1)) ≤ π / 2 := by
    have : (0.5 * (phi P slope p + 1)) ≤ 1 := by norm_num; linarith
    nlinarith [pi_pos]
  refine ⟨⟨cos_nonneg_of_mem_Icc ⟨by linarith [pi_pos], e2⟩, cos_le_one _⟩, ⟨sin_nonneg_of_nonneg_of_le_pi e1 (by linarith [pi_pos]), sin_le_one _⟩⟩

theorem flankUp_top (P p : ℤ) (slope : ℕ) (h : P = 0 ∨ p = P) : flankUp P slope p = 1 := by
  rw [flankUp, phi_top P p slope h]
  norm_num

/-! ### The loop -/

/-- Transitions in ascending order, the first one starting at `E` or later. -/
def Ascending : ℤ → List (ℤ × ℤ) → Prop
  | _, [] => True
  | E, kp :: l => 0 ≤ kp.2 ∧ E ≤ kp.1 - kp.2 ∧ Ascending (kp.1 + kp.2) l

/-- What holds of the gains before band `b` is processed: rows up to `b` form a partition, row `b` is one from bin `E` on, later rows are one. -/
def Partial (F : ℕ) (g : ℕ → ℕ → ℝ) (b : ℕ) (E : ℤ) : Prop :=
  ∀ i < F, (∑ r ∈ Finset.range (b + 1), g r i ^ 2 = 1) ∧ (∀ r, 0 ≤ g r i ∧ g r i ≤ 1) ∧ (E ≤ i → g b i = 1) ∧ (∀ r, b < r → g r i = 1)

theorem slice_min (F : ℕ) (z : ℤ) (hz : 0 ≤ z) : sliceBound F z = min z.toNat F := by
  simp only [sliceBound]; omega

theorem pos_facts (F i : ℕ) (k P : ℤ) (hP : 0 ≤ P) (hs : 0 ≤ k - P) (hi : i < F) (h1 : (k - P).toNat ≤ i) (h2 : i < (k + P + 1).toNat) (p : ℤ)
    (hp : p = if P = 0 then 0 else (i : ℤ) - sliceBound F (k - P) - P) : -P ≤ p ∧ p ≤ P ∧ ((i : ℤ) = k + P → P = 0 ∨ p = P) := by
  rw [slice_min F _ (by omega)] at hp
  by_cases h0 : P = 0
  · rw [if_pos h0] at hp; omega
  · rw [if_neg h0] at hp; omega

theorem assign_prefix (F slope b : ℕ) (g : ℕ → ℕ → ℝ) (E k P : ℤ) (hE : 0 ≤ E) (hP : 0 ≤ P) (hs : E ≤ k - P)
    (hg : Partial F g b E) : Partial F (bandAssign F slope g b k P) (b + 1) (k + P) := by
  intro i hi
  obtain ⟨hsum, hrng, hone, hlater⟩ := hg i hi
  have b1 : sliceBound F (k - P) = min (k - P).toNat F := slice_min F _ (by omega)
  have b2 : sliceBound F (k + P + 1) = min (k + P + 1).toNat F := slice_min F _ (by omega)
  have b3 : sliceBound F (k + P) = min (k + P).toNat F := slice_min F _ (by omega)
  have hother : ∀ r, r ≠ b → r ≠ b + 1 → bandAssign F slope g b k P r i = g r i := by
    intro r h1 h2; simp only [bandAssign, h1, h2, if_false]
  obtain ⟨p, hpdef⟩ : ∃ p, p = if P = 0 then 0 else (i : ℤ) - sliceBound F (k - P) - P := ⟨_, rfl⟩
  have hb : bandAssign F slope g b k P b i =
      if (k + P).toNat ≤ i then 0 else if (k - P).toNat ≤ i then flankDown P slope p else g b i := by
    simp only [bandAssign, if_true, b2, b3, ← hpdef]
    by_cases h1 : (k + P).toNat ≤ i
    · rw [if_pos (by omega), if_pos h1]
    · rw [if_neg (by omega), if_neg h1]
      by_cases h2 : (k - P).toNat ≤ i
      · rw [if_pos (by rw [b1]; omega), if_pos h2]
      · rw [if_neg (by rw [b1]; omega), if_neg h2]
  have hb1 : bandAssign F slope g b k P (b + 1) i =
      if i < (k - P).toNat then 0 else if i < (k + P + 1).toNat then flankUp P slope p else g (b + 1) i := by
    have : ¬ (b + 1 = b) := by omega
    simp only [bandAssign, this, if_false, if_true, b2, ← hpdef]
    by_cases h1 : i < (k - P).toNat
    · rw [if_pos (by rw [b1]; omega), if_pos h1]
    · rw [if_neg (by rw [b1]; omega), if_neg h1]
      by_cases h2 : i < (k + P + 1).toNat
      · rw [if_pos (by rw [b1]; omega), if_pos h2]
      · rw [if_neg (by rw [b1]; omega), if_neg h2]
  have hlow : ∑ r ∈ Finset.range b, bandAssign F slope g b k P r i ^ 2 = ∑ r ∈ Finset.range b, g r i ^ 2 := by
    apply Finset.sum_congr rfl
    intro r hr; rw [Finset.mem_range] at hr
    rw [hother r (by omega) (by omega)]
  rw [Finset.sum_range_succ] at hsum
  refine ⟨?_, ?_, ?_, ?_⟩
  · rw [Finset.sum_range_succ, Finset.sum_range_succ, hlow]
    rcases lt_or_ge i (k - P).toNat with h1 | h1
    · rw [hb, hb1, if_neg (by omega), if_neg (by omega), if_pos h1, hsum]; norm_num
    · have hgb : g b i = 1 := hone (by omega)
      have h0 : ∑ r ∈ Finset.range b, g r i ^ 2 = 0 := by rw [hgb] at hsum; linarith
      rw [h0, zero_add]
      rcases lt_or_ge i (k + P).toNat with h2 | h2
      · rw [hb, hb1, if_neg (by omega), if_pos h1, if_neg (by omega), if_pos (by omega)]
        exact flank_sq _ _ _
      · rw [hb, hb1, if_pos h2, if_neg (by omega)]
        by_cases h3 : i < (k + P + 1).toNat
        · obtain ⟨hp1, hp2, hp4⟩ := pos_facts F i k P hP (by omega) hi h1 h3 p hpdef
          rw [if_pos h3, flankUp_top P p slope (hp4 (by omega))]; norm_num
        · rw [if_neg h3, hlater (b + 1) (by omega)]; norm_num
  · intro r
    by_cases hr : r = b
    · subst hr
      rw [hb]
      split
      · norm_num
      · split
        · obtain ⟨hp1, hp2, hp4⟩ := pos_facts F i k P hP (by omega) hi (by assumption) (by omega) p hpdef
          exact (flank_range P p slope hP hp1 hp2).1
        · exact hrng r
    · by_cases hr1 : r = b + 1
      · subst hr1
        rw [hb1]
        split
        · norm_num
        · split
          · obtain ⟨hp1, hp2, hp4⟩ := pos_facts F i k P hP (by omega) hi (by omega) (by assumption) p hpdef
            exact (flank_range P p slope hP hp1 hp2).2
          · exact hrng _
      · rw [hother r hr hr1]; exact hrng r
  · intro h
    rw [hb1, if_neg (by omega)]
    split
    · obtain ⟨hp1, hp2, hp4⟩ := pos_facts F i k P hP (by omega) hi (by omega) (by assumption) p hpdef
      rw [flankUp_top P p slope (hp4 (by omega))]
    · exact hlater _ (by omega)
  · intro r hr
    rw [hother r (by omega) (by omega)]
    exact hlater r (by omega)

theorem loop_prefix (F slope : ℕ) (l : List (ℤ × ℤ)) (b : ℕ) (g g' : ℕ → ℕ → ℝ) (E : ℤ) (hE : 0 ≤ E) (hl : Ascending E l)
    (hg : Partial F g b E) (h : bandLoop F slope g b l = .ok g') : ∃ E', Partial F g' (b + l.length) E' := by
  induction l generalizing b g E with
  | nil => rw [bandLoop] at h; cases h; exact ⟨E, by simpa using hg⟩
  | cons kp l ih =>
      obtain ⟨h1, h2, h3⟩ := hl
      rw [bandLoop, bandStep] at h
      by_cases hc : (2 * kp.2 + 1).toNat ≠ 1 ∧ (2 * kp.2 + 1).toNat ≠ sliceBound F (kp.1 + kp.2 + 1) - sliceBound F (kp.1 - kp.2)
      · rw [if_pos hc] at h; cases h
      · rw [if_neg hc] at h
        obtain ⟨E', hE'⟩ := ih (b + 1) _ (kp.1 + kp.2) (by omega) h3 (assign_prefix F slope b g E kp.1 kp.2 hE h1 h2 hg) h
        exact ⟨E', by rw [List.length_cons, show b + (l.length + 1) = b + 1 + l.length by omega]; exact hE'⟩

theorem loop_ok (F slope : ℕ) (l : List (ℤ × ℤ)) (b : ℕ) (g : ℕ → ℕ → ℝ) (E : ℤ) (hE : 0 ≤ E) (hl : Ascending E l) :
    (∃ g', bandLoop F slope g b l = .ok g') ↔ ∀ kp ∈ l, kp.2 = 0 ∨ kp.1 + kp.2 < F := by
  induction l generalizing b g E with
  | nil => simp [bandLoop]
  | cons kp l ih =>
      obtain ⟨h1, h2, h3⟩ := hl
      have b1 : sliceBound F (kp.1 - kp.2) = min (kp.1 - kp.2).toNat F := slice_min F _ (by omega)
      have b2 : sliceBound F (kp.1 + kp.2 + 1) = min (kp.1 + kp.2 + 1).toNat F := slice_min F _ (by omega)
      rw [bandLoop, bandStep]
      by_cases hc : (2 * kp.2 + 1).toNat ≠ 1 ∧ (2 * kp.2 + 1).toNat ≠ sliceBound F (kp.1 + kp.2 + 1) - sliceBound F (kp.1 - kp.2)
      · rw [if_pos hc]
        constructor
        · rintro ⟨g', hg'⟩; cases hg'
        · intro H
          have := H kp (List.mem_cons_self ..)
          rw [b1, b2] at hc
          omega
      · rw [if_neg hc]
        have hthis : kp.2 = 0 ∨ kp.1 + kp.2 < F := by rw [b1, b2] at hc; omega
        have := ih (b + 1) (bandAssign F slope g b kp.1 kp.2) (kp.1 + kp.2) (by omega) h3
        rw [List.forall_mem_cons]
        exact ⟨fun h => ⟨hthis, this.1 h⟩, fun h => this.2 h.2⟩

theorem loop_error (F slope : ℕ) (l : List (ℤ × ℤ)) (b : ℕ) (g : ℕ → ℕ → ℝ) (e : PyErr) (h : bandLoop F slope g b l = .error e) : e = .valueError := by
  induction l generalizing b g with
  | nil => rw [bandLoop] at h; cases h
  | cons kp l ih =>
      rw [bandLoop, bandStep] at h
      by_cases hc : (2 * kp.2 + 1).toNat ≠ 1 ∧ (2 * kp.2 + 1).toNat ≠ sliceBound F (kp.1 + kp.2 + 1) - sliceBound F (kp.1 - kp.2)
      · rw [if_pos hc] at h; cases h; rfl
      · rw [if_neg hc] at h; exact ih _ _ h

/-! ### Rounding never makes transitions overlap -/

theorem npRound_near (x : ℝ) : x - 1 / 2 ≤ npRound x ∧ (npRound x : ℝ) ≤ x + 1 / 2 := by
  have h1 := Int.floor_le x
  have h2 := Int.lt_floor_add_one x
  unfold npRound
  split
  · constructor <;> linarith
  · split
    · push_cast; constructor <;> linarith
    · split
      · constructor <;> linarith
      · push_cast; constructor <;> linarith

theorem no_overlap (X r o : ℝ) (hX : 0 ≤ X) (hr1 : 1 ≤ r) (hr2 : r ^ 2 ≤ 2) (ho0 : 0 ≤ o) (ho : o ≤ 1 / 2) :
    0 ≤ npRound (o * (X * (r - 1))) ∧ npRound (o * (X * (r - 1))) ≤ ⌊X⌋ ∧
      npRound (o * (X * (r - 1))) + npRound (o * (r ^ 2 * X * (r - 1))) ≤ ⌊r ^ 2 * X⌋ - ⌊X⌋ := by
  have hr3 : r ≤ 1.415 := by nlinarith
  obtain ⟨u, hu⟩ : ∃ u, u = o * (X * (r - 1)) := ⟨_, rfl⟩
  have hu' : o * (r ^ 2 * X * (r - 1)) = r ^ 2 * u := by rw [hu]; ring
  have hX1 : 0 ≤ X * (r - 1) := mul_nonneg hX (by linarith)
  have hu0 : 0 ≤ u := by rw [hu]; positivity
  have hu2 : 2 * u ≤ X * (r - 1) := by rw [hu]; nlinarith
  rw [hu', ← hu]
  obtain ⟨m, hm⟩ : ∃ m, m = npRound u := ⟨_, rfl⟩
  obtain ⟨m', hm'⟩ : ∃ m, m = npRound (r ^ 2 * u) := ⟨_, rfl⟩
  have a1 := npRound_near u
  have a2 := npRound_near (r ^ 2 * u)
  rw [← hm] at a1 ⊢
  rw [← hm'] at a2 ⊢
  have hm0 : 0 ≤ m := by
    by_contra h
    have : (m : ℝ) ≤ -1 := by exact_mod_cast (by omega : m ≤ -1)
    linarith
  have hm'0 : 0 ≤ m' := by
    by_contra h
    have : (m' : ℝ) ≤ -1 := by exact_mod_cast (by omega : m' ≤ -1)
    nlinarith
  have k1 := Int.floor_le X
  have k2 := Int.lt_floor_add_one X
  have k3 := Int.floor_le (r ^ 2 * X)
  have k4 := Int.lt_floor_add_one (r ^ 2 * X)
  have hfl : 0 ≤ ⌊X⌋ := Int.floor_nonneg.2 hX
  refine ⟨hm0, ?_, ?_⟩
  · by_contra h
    push Not at h
    have c1 : ((⌊X⌋ + 1 : ℤ) : ℝ) ≤ m := by exact_mod_cast h
    push_cast at c1
    have c2 : (1 : ℝ) ≤ m := by exact_mod_cast (by omega : 1 ≤ m)
    nlinarith
  · by_contra h
    push Not at h
    have c1 : (((⌊r ^ 2 * X⌋ - ⌊X⌋ + 1 : ℤ)) : ℝ) ≤ ((m + m' : ℤ) : ℝ) := by exact_mod_cast h
    push_cast at c1
    have c2 : 2 * u * (r + 1) < m + m' := by nlinarith
    have c5 : 1.2 * r ^ 2 ≤ r + 1 := by nlinarith
    have c6 : 0.8 + r ^ 2 ≤ 2 * r := by nlinarith
    have c3 : 2.4 * (r ^ 2 * u) ≤ 2 * u * (r + 1) := by nlinarith
    have c4 : 2.8 * u + r ^ 2 * u ≤ 2 * u * (r + 1) := by nlinarith
    rcases Int.lt_or_le m 1 with hm1 | hm1
    · have hmz : m = 0 := by omega
      subst hmz
      rcases Int.lt_or_le m' 1 with h1 | h1
      · have : m' = 0 := by omega
        subst this
        push_cast at c2
        nlinarith
      · have : (1 : ℝ) ≤ m' := by exact_mod_cast h1
        push_cast at c2
        linarith
    · rcases Int.lt_or_le m 2 with hm2 | hm2
      · have hmz : m = 1 := by omega
        subst hmz
        push_cast at a1 c2
        rcases Int.lt_or_le m' 2 with h1 | h1
        · have : (m' : ℝ) ≤ 1 := by exact_mod_cast (by omega : m' ≤ 1)
          nlinarith
        · have : (2 : ℝ) ≤ m' := by exact_mod_cast h1
          linarith
      · have : (2 : ℝ) ≤ m := by exact_mod_cast hm2
        linarith

/-- Step width: `r = 2^(1/(2n))` for `n ≥ 1`. -/
theorem width_facts (n : ℝ) (hn : 1 ≤ n) : (1 : ℝ) < 2 ^ (1 / (2 * n)) ∧ ((2 : ℝ) ^ (1 / (2 * n))) ^ 2 ≤ 2 ∧ (2 : ℝ) ^ (1 / n) = ((2 : ℝ) ^ (1 / (2 * n))) ^ 2 := by
  have hn0 : 0 < n := by linarith
  have e : (2 : ℝ) ^ (1 / n) = ((2 : ℝ) ^ (1 / (2 * n))) ^ 2 := by
    rw [← rpow_natCast, ← rpow_mul (by norm_num)]
    congr 1; push_cast; field_simp
  refine ⟨one_lt_rpow (by norm_num) (by positivity), ?_, e⟩
  rw [← e]
  calc (2 : ℝ) ^ (1 / n) ≤ 2 ^ (1 : ℝ) := rpow_le_rpow_of_exponent_le (by norm_num) (by rw [div_le_one hn0]; exact hn)
    _ = 2 := rpow_one 2

theorem band_forms (n fs N o f : ℝ) (hn : 1 ≤ n) (hfs : 0 < fs) :
    bandK n fs N f = ⌊N * f / ((2 : ℝ) ^ (1 / (2 * n)) * fs)⌋ ∧
      bandP n fs N o f = npRound (o * (N * f / ((2 : ℝ) ^ (1 / (2 * n)) * fs) * ((2 : ℝ) ^ (1 / (2 * n)) - 1))) := by
  obtain ⟨r1, -, -⟩ := width_facts n hn
  unfold bandK bandP
  generalize (2 : ℝ) ^ (1 / (2 * n)) = r at *
  have hr : r ≠ 0 := by linarith
  have hπ : π ≠ 0 := pi_ne_zero
  have hf : fs ≠ 0 := hfs.ne'
  constructor
  · congr 1; field_simp
  · congr 2; field_simp

/-- Two neighbouring bands. -/
theorem band_facts (n fs N o f : ℝ) (hn : 1 ≤ n) (hfs : 0 < fs) (hN : 0 ≤ N) (ho0 : 0 ≤ o) (ho : o ≤ 1 / 2) (hf : 0 < f) :
    0 ≤ bandP n fs N o f ∧ 0 ≤ bandK n fs N f - bandP n fs N o f ∧
      bandK n fs N f + bandP n fs N o f ≤ bandK n fs N (2 ^ (1 / n) * f) - bandP n fs N o (2 ^ (1 / n) * f) := by
  obtain ⟨r1, r2, r3⟩ := width_facts n hn
  rw [(band_forms n fs N o f hn hfs).1, (band_forms n fs N o f hn hfs).2, (band_forms n fs N o (2 ^ (1 / n) * f) hn hfs).1,
    (band_forms n fs N o (2 ^ (1 / n) * f) hn hfs).2, r3]
  generalize (2 : ℝ) ^ (1 / (2 * n)) = r at *
  have e : N * (r ^ 2 * f) / (r * fs) = r ^ 2 * (N * f / (r * fs)) := by ring
  rw [e]
  have hX : 0 ≤ N * f / (r * fs) := by
    have : 0 < r := by linarith
    positivity
  obtain ⟨h1, h2, h3⟩ := no_overlap (N * f / (r * fs)) r o hX r1.le r2 ho0 ho
  omega

theorem centers_ascending (n fHigh fs N o : ℝ) (hn : 1 ≤ n) (hfs : 0 < fs) (hN : 0 ≤ N) (ho0 : 0 ≤ o) (ho : o ≤ 1 / 2) (f : ℝ) (l : List ℝ)
    (hl : Centers n fHigh f l) (hf : 0 < f) (E : ℤ) (hE : E ≤ bandK n fs N f - bandP n fs N o f) :
    Ascending E (l.map fun f => (bandK n fs N f, bandP n fs N o f)) := by
  induction hl generalizing E with
  | stop fc h => exact ⟨(band_facts n fs N o fc hn hfs hN ho0 ho hf).1, hE, trivial⟩
  | step fc l h hc ih =>
      obtain ⟨h1, h2, h3⟩ := band_facts n fs N o fc hn hfs hN ho0 ho hf
      exact ⟨h1, hE, ih (by positivity) _ h3⟩

/-! ### The property -/

/-- **C54**: the `while` loop over the centre frequencies ends for every positive lowest frequency, and its result is unique. -/
theorem C54_terminates (n fLow fHigh : ℝ) (hn : 1 ≤ n) (hf : 0 < fLow) : ∃! fc, Centers n fHigh fLow fc := by
  obtain ⟨r1, -, r3⟩ := width_facts n hn
  obtain ⟨r, hr⟩ : ∃ r : ℝ, r = 2 ^ (1 / (2 * n)) := ⟨_, rfl⟩
  rw [← hr] at r1 r3
  have hex : ∀ m : ℕ, ∀ f : ℝ, 0 < f → fHigh ≤ (r ^ 2) ^ m * f * r → ∃! fc, Centers n fHigh f fc := by
    intro m
    induction m with
    | zero =>
        intro f hf h
        have hns : ¬ f * 2 ^ (1 / (2 * n)) < fHigh := by rw [← hr]; linarith
        refine ⟨[f], .stop f hns, ?_⟩
        intro l hl
        cases hl with
        | stop => rfl
        | step _ _ h' _ => exact absurd h' hns
    | succ m ih =>
        intro f hf h
        by_cases hs : f * 2 ^ (1 / (2 * n)) < fHigh
        · obtain ⟨l, hl, huniq⟩ := ih (2 ^ (1 / n) * f) (by positivity) (by
            rw [r3, ← mul_assoc, ← pow_succ]; exact h)
          refine ⟨f :: l, .step f l hs hl, ?_⟩
          intro l' hl'
          cases hl' with
          | stop _ h' => exact absurd hs h'
          | step _ l'' _ h'' => rw [huniq l'' h'']
        · refine ⟨[f], .stop f hs, ?_⟩
          intro l hl
          cases hl with
          | stop => rfl
          | step _ _ h' _ => exact absurd h' hs
  obtain ⟨m, hm⟩ := pow_unbounded_of_one_lt (fHigh / (fLow * r)) (show 1 < r ^ 2 by nlinarith)
  refine hex m fLow hf ?_
  rw [div_lt_iff₀ (by nlinarith)] at hm
  linarith

example : (1 : ℝ) ≤ 3 ∧ (0 : ℝ) < 100 := by norm_num

theorem bank_prefix (n fs fHigh fLow overlap : ℝ) (Nout slope : ℕ) (fc : List ℝ) (mode : FbMode) (g : ℕ → ℕ → ℝ)
    (hn : 1 ≤ n) (hN : 2 ≤ Nout) (hfs : 0 < fs) (hf : 0 < fLow) (hov : 0 ≤ overlap)
    (hfc : Centers n fHigh fLow fc) (h : filterbank n Nout fs fc mode overlap slope = .ok g) :
    ∃ g0 E, Partial Nout g0 fc.length E ∧ applyMode mode g0 = .ok g := by
  unfold filterbank at h
  by_cases ho : overlap ≤ 0.5
  · rw [if_pos ho] at h
    have hN' : (0 : ℝ) ≤ ((Nout : ℝ) - 1) * 2 := by
      have : (2 : ℝ) ≤ Nout := by exact_mod_cast hN
      linarith
    have hasc := centers_ascending n fHigh fs (((Nout : ℝ) - 1) * 2) overlap hn hfs hN' hov (by norm_num at ho ⊢; exact ho) fLow fc hfc hf 0
      (band_facts n fs _ overlap fLow hn hfs hN' hov (by norm_num at ho ⊢; exact ho) hf).2.1
    rcases hq : bandLoop Nout slope (fun _ _ => 1) 0
      (fc.map fun f => (bandK n fs (((Nout : ℝ) - 1) * 2) f, bandP n fs (((Nout : ℝ) - 1) * 2) overlap f)) with e | g0
    · rw [hq] at h; cases h
    · rw [hq] at h
      obtain ⟨E, hE⟩ := loop_prefix Nout slope _ 0 (fun _ _ => 1) g0 0 le_rfl hasc (by
        intro i _; refine ⟨by simp, fun r => by norm_num, fun _ => rfl, fun r _ => rfl⟩) hq
      refine ⟨g0, E, ?_, h⟩
      simpa using hE
  · rw [if_neg ho] at h; cases h

/-- **C54**: whenever the filter bank is returned in mode `'energy'`, the squared gains of its `len(fc) + 1` bands sum to one in every bin and all gains lie in `[0, 1]`
— for every number of bands per octave, size, sampling rate, frequency limits, overlap from 0 to 0.5 and slope. -/
theorem C54_energy (n fs fHigh fLow overlap : ℝ) (Nout slope : ℕ) (fc : List ℝ) (g : ℕ → ℕ → ℝ)
    (hn : 1 ≤ n) (hN : 2 ≤ Nout) (hfs : 0 < fs) (hf : 0 < fLow) (hov : 0 ≤ overlap)
    (hfc : Centers n fHigh fLow fc) (h : filterbank n Nout fs fc .energy overlap slope = .ok g) :
    ∀ i < Nout, (∑ r ∈ Finset.range (fc.length + 1), g r i ^ 2 = 1) ∧ ∀ r ≤ fc.length, 0 ≤ g r i ∧ g r i ≤ 1 := by
  obtain ⟨g0, E, hp, hm⟩ := bank_prefix n fs fHigh fLow overlap Nout slope fc _ g hn hN hfs hf hov hfc h
  cases hm
  intro i hi
  obtain ⟨h1, h2, -, -⟩ := hp i hi
  exact ⟨h1, fun r _ => h2 r⟩

/-- **C54**: in mode `'amplitude'` (or `'pressure'`) the gains themselves sum to one. -/
theorem C54_amplitude (n fs fHigh fLow overlap : ℝ) (Nout slope : ℕ) (fc : List ℝ) (mode : FbMode) (g : ℕ → ℕ → ℝ)
    (hmode : mode = .amplitude ∨ mode = .pressure)
    (hn : 1 ≤ n) (hN : 2 ≤ Nout) (hfs : 0 < fs) (hf : 0 < fLow) (hov : 0 ≤ overlap)
    (hfc : Centers n fHigh fLow fc) (h : filterbank n Nout fs fc mode overlap slope = .ok g) :
    ∀ i < Nout, (∑ r ∈ Finset.range (fc.length + 1), g r i = 1) ∧ ∀ r ≤ fc.length, 0 ≤ g r i ∧ g r i ≤ 1 := by
  obtain ⟨g0, E, hp, hm⟩ := bank_prefix n fs fHigh fLow overlap Nout slope fc _ g hn hN hfs hf hov hfc h
  have hg : g = fun r i => g0 r i ^ 2 := by
    rcases hmode with rfl | rfl <;> cases hm <;> rfl
  subst hg
  intro i hi
  obtain ⟨h1, h2, -, -⟩ := hp i hi
  refine ⟨h1, fun r _ => ⟨sq_nonneg _, ?_⟩⟩
  obtain ⟨a, b⟩ := h2 r
  nlinarith

/-- `C54_ok_iff` in terms of the bins of the model. -/
theorem bank_ok_iff (n fs fHigh fLow overlap : ℝ) (Nout slope : ℕ) (fc : List ℝ) (mode : FbMode) (hmode : mode ≠ .other)
    (hn : 1 ≤ n) (hN : 2 ≤ Nout) (hfs : 0 < fs) (hf : 0 < fLow) (hov : 0 ≤ overlap) (ho : overlap ≤ 0.5)
    (hfc : Centers n fHigh fLow fc) :
    ((∃ g, filterbank n Nout fs fc mode overlap slope = .ok g) ↔
      ∀ f ∈ fc, bandP n fs (((Nout : ℝ) - 1) * 2) overlap f = 0 ∨
        bandK n fs (((Nout : ℝ) - 1) * 2) f + bandP n fs (((Nout : ℝ) - 1) * 2) overlap f < Nout) ∧
    ((¬ ∃ g, filterbank n Nout fs fc mode overlap slope = .ok g) → filterbank n Nout fs fc mode overlap slope = .error .valueError) := by
  unfold filterbank
  rw [if_pos ho]
  have hN' : (0 : ℝ) ≤ ((Nout : ℝ) - 1) * 2 := by
    have : (2 : ℝ) ≤ Nout := by exact_mod_cast hN
    linarith
  have ho' : overlap ≤ 1 / 2 := by norm_num at ho ⊢; exact ho
  have hasc := centers_ascending n fHigh fs (((Nout : ℝ) - 1) * 2) overlap hn hfs hN' hov ho' fLow fc hfc hf 0
    (band_facts n fs _ overlap fLow hn hfs hN' hov ho' hf).2.1
  have hiff := loop_ok Nout slope _ 0 (fun _ _ => 1) 0 le_rfl hasc
  rw [List.forall_mem_map] at hiff
  have hmok : ∀ g0, ∃ g, applyMode mode g0 = .ok g := by
    intro g0; cases mode <;> first | exact ⟨_, rfl⟩ | exact absurd rfl hmode
  rcases hq : bandLoop Nout slope (fun _ _ => 1) 0
      (fc.map fun f => (bandK n fs (((Nout : ℝ) - 1) * 2) f, bandP n fs (((Nout : ℝ) - 1) * 2) overlap f)) with e | g0
  · have he := loop_error _ _ _ _ _ _ hq
    subst he
    rw [hq] at hiff
    refine ⟨⟨fun ⟨g, hg⟩ => ?_, fun H => ?_⟩, fun _ => rfl⟩
    · cases hg
    · obtain ⟨g', hg'⟩ := hiff.2 H; cases hg'
  · rw [hq] at hiff
    refine ⟨⟨fun _ => hiff.1 ⟨g0, rfl⟩, fun _ => hmok g0⟩, fun H => absurd (hmok g0) H⟩

/-- **C54**: an unknown mode raises `ValueError`, a larger overlap `AssertionError`. -/
theorem C54_reject (n fs overlap : ℝ) (Nout slope : ℕ) (fc : List ℝ) (mode : FbMode) :
    (overlap ≤ 0.5 → filterbank n Nout fs fc .other overlap slope = .error .valueError) ∧
    (0.5 < overlap → filterbank n Nout fs fc mode overlap slope = .error .assertionError) := by
  constructor
  · intro h
    unfold filterbank
    rw [if_pos h]
    rcases hq : bandLoop Nout slope (fun _ _ => 1) 0
      (fc.map fun f => (bandK n fs (((Nout : ℝ) - 1) * 2) f, bandP n fs (((Nout : ℝ) - 1) * 2) overlap f)) with e | g0
    · rw [loop_error _ _ _ _ _ _ hq]; rfl
    · rfl
  · intro h
    unfold filterbank
    rw [if_neg (by linarith)]

/-- An octave filter bank with one transition of seven bins around bin 14 meets the hypotheses (`n = 1`, 4801 bins, 48 kHz, `f_low = f_high = 100`). -/
theorem example_band : Centers 1 100 100 [100] ∧ bandK 1 48000 9600 100 = 14 ∧ bandP 1 48000 9600 0.5 100 = 3 := by
  have hr : (2 : ℝ) ^ ((1 : ℝ) / (2 * 1)) = √2 := by rw [sqrt_eq_rpow]; norm_num
  have s1 : (1.414 : ℝ) < √2 := by rw [lt_sqrt (by norm_num)]; norm_num
  have s2 : √2 < (1.415 : ℝ) := by rw [sqrt_lt' (by norm_num)]; norm_num
  refine ⟨.stop _ ?_, ?_, ?_⟩
  · rw [hr]; intro h; linarith
  · rw [(band_forms 1 48000 9600 0 100 le_rfl (by norm_num)).1, hr, Int.floor_eq_iff]
    have hp : (0 : ℝ) < √2 * 48000 := by linarith
    rw [le_div_iff₀ hp, div_lt_iff₀ hp]
    constructor <;> norm_num <;> linarith
  · rw [(band_forms 1 48000 9600 0.5 100 le_rfl (by norm_num)).2, hr]
    have e : (0.5 : ℝ) * (9600 * 100 / (√2 * 48000) * (√2 - 1)) = 10 - 5 * √2 := by
      have h2 : √2 * √2 = 2 := mul_self_sqrt (by norm_num)
      have h0 : √2 ≠ 0 := by linarith
      field_simp; nlinarith
    rw [e]
    have hfl : ⌊10 - 5 * √2⌋ = 2 := by rw [Int.floor_eq_iff]; constructor <;> norm_num <;> linarith
    rw [npRound, hfl, if_neg (by norm_num; linarith), if_pos (by norm_num; linarith)]
    norm_num

theorem example_bank (mode : FbMode) (hm : mode ≠ .other) : ∃ g, filterbank 1 4801 48000 [100] mode 0.5 2 = .ok g := by
  refine (bank_ok_iff 1 48000 100 100 0.5 4801 2 [100] mode hm le_rfl (by norm_num) (by norm_num) (by norm_num) (by norm_num) le_rfl
    example_band.1).1.2 ?_
  intro f hf
  rw [List.mem_singleton] at hf
  subst hf
  right
  norm_num
  rw [example_band.2.1]
  have := example_band.2.2
  norm_num at this
  rw [this]; norm_num

/-- `C54_energy` and `C54_amplitude` for this filter bank. -/
example : ∃ g, filterbank 1 4801 48000 [100] .energy 0.5 2 = .ok g ∧ ∑ r ∈ Finset.range 2, g r 14 ^ 2 = 1 := by
  obtain ⟨g, hg⟩ := example_bank .energy (by decide)
  exact ⟨g, hg, (C54_energy 1 48000 100 100 0.5 4801 2 [100] g le_rfl (by norm_num) (by norm_num) (by norm_num) (by norm_num) example_band.1 hg 14 (by norm_num)).1⟩

example : ∃ g, filterbank 1 4801 48000 [100] .amplitude 0.5 2 = .ok g ∧ ∑ r ∈ Finset.range 2, g r 14 = 1 := by
  obtain ⟨g, hg⟩ := example_bank .amplitude (by decide)
  exact ⟨g, hg, (C54_amplitude 1 48000 100 100 0.5 4801 2 [100] _ g (.inl rfl) le_rfl (by norm_num) (by norm_num) (by norm_num) (by norm_num) example_band.1 hg 14
    (by norm_num)).1⟩

/-- **C54** (outside the documented range `[0, 0.5]`): a negative overlap passes the assertion, and leaves bins without any band. -/
theorem C54_negative_overlap_fails : ∃ g, filterbank 1 4801 48000 [100] .energy (-1) 2 = .ok g ∧ ∑ r ∈ Finset.range 2, g r 10 ^ 2 = 0 := by
  have hr : (2 : ℝ) ^ ((1 : ℝ) / (2 * 1)) = √2 := by rw [sqrt_eq_rpow]; norm_num
  have s1 : (1.414 : ℝ) < √2 := by rw [lt_sqrt (by norm_num)]; norm_num
  have s2 : √2 < (1.415 : ℝ) := by rw [sqrt_lt' (by norm_num)]; norm_num
  have hP : bandP 1 48000 9600 (-1) 100 = -6 := by
    rw [(band_forms 1 48000 9600 (-1) 100 le_rfl (by norm_num)).2, hr]
    have e : (-1 : ℝ) * (9600 * 100 / (√2 * 48000) * (√2 - 1)) = 10 * √2 - 20 := by
      have h2 : √2 * √2 = 2 := mul_self_sqrt (by norm_num)
      have h0 : √2 ≠ 0 := by linarith
      field_simp; nlinarith
    rw [e]
    have hfl : ⌊10 * √2 - 20⌋ = -6 := by rw [Int.floor_eq_iff]; constructor <;> norm_num <;> linarith
    rw [npRound, hfl, if_pos (by norm_num; linarith)]
  have hN : (((4801 : ℕ) : ℝ) - 1) * 2 = 9600 := by norm_num
  refine ⟨bandAssign 4801 2 (fun _ _ => 1) 0 14 (-6), ?_, ?_⟩
  · unfold filterbank
    rw [if_pos (by norm_num), hN]
    simp only [List.map_cons, List.map_nil, example_band.2.1, hP]
    rfl
  · rw [Finset.sum_range_succ, Finset.sum_range_one]
    simp only [bandAssign, if_true]
    rw [if_pos (by simp [sliceBound]), if_neg (by norm_num), if_pos (by simp [sliceBound])]
    norm_num

end Verif.Props
