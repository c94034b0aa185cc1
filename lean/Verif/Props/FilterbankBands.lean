import Verif.Props.FilterTable

/-! Where the bands of the filter bank lie (C136). -/

namespace Verif.Props
open Process Real

/-- What the falling flank of a band does to a gain. -/
noncomputable def fallV (F slope : ℕ) (kp : ℤ × ℤ) (i : ℕ) (v : ℝ) : ℝ :=
  if sliceBound F (kp.1 + kp.2) ≤ i then 0
  else if sliceBound F (kp.1 - kp.2) ≤ i ∧ i < sliceBound F (kp.1 + kp.2 + 1) then
    flankDown kp.2 slope (if kp.2 = 0 then 0 else (i : ℤ) - sliceBound F (kp.1 - kp.2) - kp.2)
  else v

/-- What the rising flank of a band does to a gain. -/
noncomputable def riseV (F slope : ℕ) (kp : ℤ × ℤ) (i : ℕ) (v : ℝ) : ℝ :=
  if i < sliceBound F (kp.1 - kp.2) then 0
  else if sliceBound F (kp.1 - kp.2) ≤ i ∧ i < sliceBound F (kp.1 + kp.2 + 1) then
    flankUp kp.2 slope (if kp.2 = 0 then 0 else (i : ℤ) - sliceBound F (kp.1 - kp.2) - kp.2)
  else v

theorem assign_rows (F slope b : ℕ) (g : ℕ → ℕ → ℝ) (k P : ℤ) (i : ℕ) :
    bandAssign F slope g b k P b i = fallV F slope (k, P) i (g b i) ∧ bandAssign F slope g b k P (b + 1) i = riseV F slope (k, P) i (g (b + 1) i) ∧
    ∀ r, r ≠ b → r ≠ b + 1 → bandAssign F slope g b k P r i = g r i := by
  refine ⟨?_, ?_, fun r h1 h2 => ?_⟩
  · simp [bandAssign, fallV]
  · simp [bandAssign, riseV]
  · simp [bandAssign, h1, h2]

/-- The gains after the loop, row by row. -/
theorem loop_rows (F slope : ℕ) (l : List (ℤ × ℤ)) (b : ℕ) (g g' : ℕ → ℕ → ℝ) (h : bandLoop F slope g b l = .ok g') (i : ℕ) :
    (∀ r < b, g' r i = g r i) ∧ (∀ kp ∈ l[0]?, g' b i = fallV F slope kp i (g b i)) ∧ (l = [] → g' b i = g b i) ∧
    (∀ j, ∀ kp ∈ l[j]?, (∀ kq ∈ l[j + 1]?, g' (b + j + 1) i = fallV F slope kq i (riseV F slope kp i (g (b + j + 1) i))) ∧
      (l[j + 1]? = none → g' (b + j + 1) i = riseV F slope kp i (g (b + j + 1) i))) := by
  induction l generalizing b g with
  | nil => rw [bandLoop] at h; cases h; simp
  | cons kp l ih =>
    rw [bandLoop, bandStep] at h
    by_cases hc : (2 * kp.2 + 1).toNat ≠ 1 ∧ (2 * kp.2 + 1).toNat ≠ sliceBound F (kp.1 + kp.2 + 1) - sliceBound F (kp.1 - kp.2)
    · rw [if_pos hc] at h; cases h
    · rw [if_neg hc] at h
      obtain ⟨a1, a2, a3⟩ := assign_rows F slope b g kp.1 kp.2 i
      obtain ⟨i1, i2, i3, i4⟩ := ih (b + 1) _ h
      refine ⟨fun r hr => ?_, ?_, by simp, fun j kq hq => ?_⟩
      · rw [i1 r (by omega), a3 r (by omega) (by omega)]
      · rintro kq hq
        simp only [List.length_cons, Nat.zero_lt_succ, getElem?_pos, List.getElem_cons_zero, Option.mem_def, Option.some.injEq] at hq
        subst hq
        rw [i1 b (by omega), a1]
      · rcases j with _ | j
        · simp only [List.length_cons, Nat.zero_lt_succ, getElem?_pos, List.getElem_cons_zero, Option.mem_def, Option.some.injEq] at hq
          subst hq
          simp only [List.getElem?_cons_succ, Nat.add_zero]
          refine ⟨fun kr hr => ?_, fun hn => ?_⟩
          · rw [i2 kr hr, a2]
          · rw [i3 (by simpa using hn), a2]
        · rw [List.getElem?_cons_succ] at hq
          simp only [List.getElem?_cons_succ]
          have hrow : ∀ kp' : ℤ × ℤ, bandAssign F slope g b kp.1 kp.2 (b + 1 + j + 1) i = g (b + (j + 1) + 1) i := by
            intro _
            rw [a3 _ (by omega) (by omega)]
            congr 1; omega
          obtain ⟨h1, h2⟩ := i4 j kq hq
          rw [hrow kp] at h1 h2
          rw [show b + (j + 1) + 1 = b + 1 + j + 1 by omega]
          rw [show b + (j + 1) + 1 = b + 1 + j + 1 by omega] at h1 h2
          exact ⟨h1, h2⟩

theorem ascending_get (l : List (ℤ × ℤ)) (E : ℤ) (h : Ascending E l) :
    (∀ j : ℕ, ∀ kp ∈ l[j]?, 0 ≤ kp.2 ∧ E ≤ kp.1 - kp.2) ∧
    ∀ i j : ℕ, i < j → ∀ kp ∈ l[i]?, ∀ kq ∈ l[j]?, kp.1 + kp.2 ≤ kq.1 - kq.2 := by
  induction l generalizing E with
  | nil => simp
  | cons kp l ih =>
    obtain ⟨h1, h2, h3⟩ := h
    obtain ⟨i1, i2⟩ := ih _ h3
    refine ⟨fun j kq hq => ?_, fun i j hij kq hq kr hr => ?_⟩
    · rcases j with _ | j
      · simp only [List.length_cons, Nat.zero_lt_succ, getElem?_pos, List.getElem_cons_zero, Option.mem_def, Option.some.injEq] at hq
        subst hq
        exact ⟨h1, h2⟩
      · rw [List.getElem?_cons_succ] at hq
        have := i1 j kq hq
        exact ⟨this.1, by omega⟩
    · rcases j with _ | j
      · omega
      · rw [List.getElem?_cons_succ] at hr
        rcases i with _ | i
        · simp only [List.length_cons, Nat.zero_lt_succ, getElem?_pos, List.getElem_cons_zero, Option.mem_def, Option.some.injEq] at hq
          subst hq
          exact (i1 j kr hr).2
        · rw [List.getElem?_cons_succ] at hq
          exact i2 i j (by omega) kq hq kr hr

theorem fallV_low (F slope : ℕ) (kp : ℤ × ℤ) (i : ℕ) (v : ℝ) (hP : 0 ≤ kp.2) (hs : 0 ≤ kp.1 - kp.2) (hi : i < F) (h : (i : ℤ) < kp.1 - kp.2) : fallV F slope kp i v = v := by
  unfold fallV
  rw [slice_min F _ (by omega), slice_min F _ (by omega), slice_min F _ (by omega), if_neg (by omega), if_neg (by omega)]

theorem fallV_high (F slope : ℕ) (kp : ℤ × ℤ) (i : ℕ) (v : ℝ) (hP : 0 ≤ kp.2) (hs : 0 ≤ kp.1 - kp.2) (h : kp.1 + kp.2 ≤ i) : fallV F slope kp i v = 0 := by
  unfold fallV
  rw [slice_min F _ (by omega), if_pos (by omega)]

theorem riseV_low (F slope : ℕ) (kp : ℤ × ℤ) (i : ℕ) (v : ℝ) (hs : 0 ≤ kp.1 - kp.2) (hi : i < F) (h : (i : ℤ) < kp.1 - kp.2) : riseV F slope kp i v = 0 := by
  unfold riseV
  rw [slice_min F _ (by omega), if_pos (by omega)]

theorem riseV_high (F slope : ℕ) (kp : ℤ × ℤ) (i : ℕ) (hP : 0 ≤ kp.2) (hs : 0 ≤ kp.1 - kp.2) (hi : i < F) (h : kp.1 + kp.2 ≤ i) : riseV F slope kp i 1 = 1 := by
  unfold riseV
  rw [if_neg (by rw [slice_min F _ (by omega)]; omega)]
  split
  · rename_i h2
    rw [slice_min F (kp.1 + kp.2 + 1) (by omega)] at h2
    apply flankUp_top
    rw [slice_min F _ (by omega)]
    by_cases h0 : kp.2 = 0
    · exact Or.inl h0
    · rw [if_neg h0]; right; omega
  · rfl

/-- The gains of the bank in terms of the transitions. -/
theorem bank_rows (n fs fHigh fLow overlap : ℝ) (Nout slope : ℕ) (fc : List ℝ) (mode : FbMode) (g : ℕ → ℕ → ℝ)
    (hn : 1 ≤ n) (hN : 2 ≤ Nout) (hfs : 0 < fs) (hf : 0 < fLow) (hov : 0 ≤ overlap)
    (hfc : Centers n fHigh fLow fc) (h : filterbank n Nout fs fc mode overlap slope = .ok g) :
    ∃ l : List (ℤ × ℤ), l = (fc.map fun f => (bandK n fs (((Nout : ℝ) - 1) * 2) f, bandP n fs (((Nout : ℝ) - 1) * 2) overlap f)) ∧ Ascending 0 l ∧
      ∃ g0, bandLoop Nout slope (fun _ _ => 1) 0 l = .ok g0 ∧ applyMode mode g0 = .ok g ∧ overlap ≤ 0.5 := by
  refine ⟨_, rfl, ?_⟩
  unfold filterbank at h
  by_cases ho : overlap ≤ 0.5
  · rw [if_pos ho] at h
    have hN' : (0 : ℝ) ≤ ((Nout : ℝ) - 1) * 2 := by
      have : (2 : ℝ) ≤ Nout := by exact_mod_cast hN
      linarith
    refine ⟨centers_ascending n fHigh fs (((Nout : ℝ) - 1) * 2) overlap hn hfs hN' hov (by norm_num at ho ⊢; exact ho) fLow fc hfc hf 0
      (band_facts n fs _ overlap fLow hn hfs hN' hov (by norm_num at ho ⊢; exact ho) hf).2.1, ?_⟩
    rcases hq : bandLoop Nout slope (fun _ _ => 1) 0
      (fc.map fun f => (bandK n fs (((Nout : ℝ) - 1) * 2) f, bandP n fs (((Nout : ℝ) - 1) * 2) overlap f)) with e | g0
    · rw [hq] at h; cases h
    · rw [hq] at h
      exact ⟨g0, rfl, h, ho⟩
  · rw [if_neg ho] at h; cases h

/-- In bins: zero below the rise and above the fall, one in between. -/
theorem bins_rows (F slope : ℕ) (l : List (ℤ × ℤ)) (hl : Ascending 0 l) (g : ℕ → ℕ → ℝ) (h : bandLoop F slope (fun _ _ => 1) 0 l = .ok g) (i : ℕ) (hi : i < F) :
    (∀ j : ℕ, ∀ kp ∈ l[j]?, (i : ℤ) < kp.1 - kp.2 → g (j + 1) i = 0) ∧
    (∀ j : ℕ, ∀ kp ∈ l[j]?, kp.1 + kp.2 ≤ (i : ℤ) → g j i = 0) ∧
    ∀ r ≤ l.length, (∀ j, r = j + 1 → ∀ kp ∈ l[j]?, kp.1 + kp.2 ≤ (i : ℤ)) → (∀ kp ∈ l[r]?, (i : ℤ) < kp.1 - kp.2) → g r i = 1 := by
  obtain ⟨-, r1, r2, r3⟩ := loop_rows F slope l 0 _ g h i
  obtain ⟨a1, a2⟩ := ascending_get l 0 hl
  have hget : ∀ j < l.length, ∃ kp, kp ∈ l[j]? := fun j hj => ⟨l[j], by simp [hj]⟩
  refine ⟨fun j kp hk hlt => ?_, fun j kp hk hge => ?_, fun r hr hlo hhi => ?_⟩
  · obtain ⟨h1, h2⟩ := r3 j kp hk
    rw [Nat.zero_add] at h1 h2
    have ak := a1 j kp hk
    rcases hq : l[j + 1]? with _ | kq
    · rw [h2 hq, riseV_low F slope kp i _ (by omega) hi hlt]
    · have aq := a1 (j + 1) kq hq
      have apq := a2 j (j + 1) (by omega) kp hk kq hq
      rw [h1 kq hq, fallV_low F slope kq i _ aq.1 (by omega) hi (by omega), riseV_low F slope kp i _ (by omega) hi hlt]
  · have ak := a1 j kp hk
    rcases j with _ | j
    · rw [r1 kp hk, fallV_high F slope kp i _ ak.1 (by omega) hge]
    · have hj : j + 1 < l.length := by
        by_contra hc
        rw [List.getElem?_eq_none (by omega)] at hk
        cases hk
      obtain ⟨kp', hk'⟩ := hget j (by omega)
      have := (r3 j kp' hk').1 kp hk
      rw [Nat.zero_add] at this
      rw [this, fallV_high F slope kp i _ ak.1 (by omega) hge]
  · rcases r with _ | j
    · rcases hq : l[0]? with _ | kq
      · rw [r2 (by simpa using hq)]
      · have aq := a1 0 kq hq
        rw [r1 kq hq, fallV_low F slope kq i _ aq.1 (by omega) hi (hhi kq hq)]
    · obtain ⟨kp, hk⟩ := hget j (by omega)
      have ak := a1 j kp hk
      obtain ⟨h1, h2⟩ := r3 j kp hk
      rw [Nat.zero_add] at h1 h2
      have hrise := riseV_high F slope kp i ak.1 (by omega) hi (hlo j rfl kp hk)
      rcases hq : l[j + 1]? with _ | kq
      · rw [h2 hq, hrise]
      · have aq := a1 (j + 1) kq hq
        rw [h1 kq hq, fallV_low F slope kq i _ aq.1 (by omega) hi (hhi kq hq), hrise]

theorem mode_zero_one (mode : FbMode) (g0 g : ℕ → ℕ → ℝ) (h : applyMode mode g0 = .ok g) (r i : ℕ) :
    (g0 r i = 0 → g r i = 0) ∧ (g0 r i = 1 → g r i = 1) ∧ (g r i ≠ 0 → g0 r i ≠ 0) := by
  cases mode <;> cases h <;> simp <;> intro h <;> simp [h]

/-- **C136** At every bin at most two bands have a gain, and they are neighbours. -/
theorem C136_neighbours (n fs fHigh fLow overlap : ℝ) (Nout slope : ℕ) (fc : List ℝ) (mode : FbMode) (g : ℕ → ℕ → ℝ)
    (hn : 1 ≤ n) (hN : 2 ≤ Nout) (hfs : 0 < fs) (hf : 0 < fLow) (hov : 0 ≤ overlap)
    (hfc : Centers n fHigh fLow fc) (h : filterbank n Nout fs fc mode overlap slope = .ok g) (i : ℕ) (hi : i < Nout)
    (r s : ℕ) (hr : r ≤ fc.length) (hs : s ≤ fc.length) (hgr : g r i ≠ 0) (hgs : g s i ≠ 0) : r ≤ s + 1 ∧ s ≤ r + 1 := by
  obtain ⟨l, el, hl, g0, h0, hm, -⟩ := bank_rows n fs fHigh fLow overlap Nout slope fc mode g hn hN hfs hf hov hfc h
  obtain ⟨b1, b2, -⟩ := bins_rows Nout slope l hl g0 h0 i hi
  have len : l.length = fc.length := by rw [el, List.length_map]
  have key : ∀ r s, s ≤ fc.length → g r i ≠ 0 → g s i ≠ 0 → s ≤ r + 1 := by
    intro r s hs hgr hgs
    by_contra hc
    have hk : l[r]? = some l[r] := by simp [show r < l.length by omega]
    have hk' : l[s - 1]? = some l[s - 1] := by simp [show s - 1 < l.length by omega]
    have hasc := (ascending_get l 0 hl).2 r (s - 1) (by omega) _ hk _ hk'
    rcases lt_or_ge (i : ℤ) (l[r].1 + l[r].2) with hlt | hge
    · have := b1 (s - 1) _ hk' (by omega)
      rw [show s - 1 + 1 = s by omega] at this
      exact (mode_zero_one mode g0 g hm s i).2.2 hgs this
    · exact (mode_zero_one mode g0 g hm r i).2.2 hgr (b2 r _ hk hge)
  exact ⟨key s r hr hgs hgr, key r s hs hgr hgs⟩

/-- **C136** The edge between bands `j` and `j + 1` is the frequency `f_low·2^((2j-1)/2n)`; away from it by more than the overlap (and the resolution of the bins),
a band has gain zero outside its edges and gain one inside. -/
theorem C136_bands (n fs fHigh fLow overlap : ℝ) (Nout slope : ℕ) (fc : List ℝ) (mode : FbMode) (g : ℕ → ℕ → ℝ)
    (hn : 1 ≤ n) (hN : 2 ≤ Nout) (hfs : 0 < fs) (hf : 0 < fLow) (hov : 0 ≤ overlap)
    (hfc : Centers n fHigh fLow fc) (h : filterbank n Nout fs fc mode overlap slope = .ok g) (i : ℕ) (hi : i < Nout)
    (bin : ℝ) (hbin : bin = fs / (2 * ((Nout : ℝ) - 1))) (centre edge : ℕ → ℝ) (hcentre : ∀ j : ℕ, centre j = fLow * 2 ^ (j / n))
    (hedge : ∀ j : ℕ, edge j = fLow * 2 ^ ((2 * j - 1) / (2 * n))) :
    (∀ j < fc.length, i * bin ≤ edge j - overlap * (centre j - edge j) - 1.5 * bin → g (j + 1) i = 0) ∧
    (∀ j < fc.length, edge j + overlap * (centre j - edge j) + 0.5 * bin ≤ i * bin → g j i = 0) ∧
    ∀ r ≤ fc.length, (∀ j, r = j + 1 → edge j + overlap * (centre j - edge j) + 0.5 * bin ≤ i * bin) →
      (r < fc.length → i * bin ≤ edge r - overlap * (centre r - edge r) - 1.5 * bin) → g r i = 1 := by
  obtain ⟨l, el, hl, g0, h0, hm, -⟩ := bank_rows n fs fHigh fLow overlap Nout slope fc mode g hn hN hfs hf hov hfc h
  obtain ⟨b1, b2, b3⟩ := bins_rows Nout slope l hl g0 h0 i hi
  have len : l.length = fc.length := by rw [el, List.length_map]
  have hNr : (2 : ℝ) ≤ Nout := by exact_mod_cast hN
  have hb : 0 < bin := by rw [hbin]; apply div_pos hfs; linarith
  obtain ⟨w1, -, w3⟩ := width_facts n hn
  have hn0 : 0 < n := by linarith
  have get : ∀ j (hj : j < fc.length), ∃ k P : ℤ, l[j]? = some (k, P) ∧
      edge j - overlap * (centre j - edge j) - 1.5 * bin < ((k - P : ℤ) : ℝ) * bin ∧ ((k + P : ℤ) : ℝ) * bin ≤ edge j + overlap * (centre j - edge j) + 0.5 * bin := by
    intro j hj
    refine ⟨_, _, by rw [el, List.getElem?_map, List.getElem?_eq_getElem hj, Option.map_some], ?_⟩
    have hg := (centers_get n fHigh fLow fc hfc).2.1 j hj
    rw [List.getD_eq_getElem _ _ hj] at hg
    have e1 : fc[j] = centre j := by
      rw [hg, hcentre, ← rpow_natCast, ← rpow_mul (by norm_num)]
      congr 2; ring
    have e2 : centre j / 2 ^ (1 / (2 * n)) = edge j := by
      rw [hcentre, hedge, mul_div_assoc, ← rpow_sub (by norm_num)]
      congr 2
      field_simp
    obtain ⟨f1, f2⟩ := band_forms n fs (((Nout : ℝ) - 1) * 2) overlap fc[j] hn hfs
    have hr : (2 : ℝ) ^ (1 / (2 * n)) ≠ 0 := by linarith
    have hX : ((Nout : ℝ) - 1) * 2 * fc[j] / ((2 : ℝ) ^ (1 / (2 * n)) * fs) = edge j / bin := by
      rw [e1, ← e2, hbin]
      have : (Nout : ℝ) - 1 ≠ 0 := by linarith
      field_simp
    have hY : edge j / bin * ((2 : ℝ) ^ (1 / (2 * n)) - 1) = (centre j - edge j) / bin := by
      rw [← e2]
      field_simp
    rw [f1, f2, hX, hY]
    have k1 := Int.floor_le (edge j / bin)
    have k2 := Int.lt_floor_add_one (edge j / bin)
    obtain ⟨p1, p2⟩ := npRound_near (overlap * ((centre j - edge j) / bin))
    generalize (⌊edge j / bin⌋ : ℤ) = k at *
    generalize npRound (overlap * ((centre j - edge j) / bin)) = P at *
    have x1 : edge j = edge j / bin * bin := by field_simp
    have x2 : overlap * (centre j - edge j) = overlap * ((centre j - edge j) / bin) * bin := by field_simp
    push_cast
    constructor
    · have : (edge j / bin - overlap * ((centre j - edge j) / bin) - 1.5) * bin < ((k : ℝ) - P) * bin := mul_lt_mul_of_pos_right (by linarith) hb
      rw [x2]
      calc _ = (edge j / bin - overlap * ((centre j - edge j) / bin) - 1.5) * bin := by rw [sub_mul, sub_mul, ← x1]
        _ < _ := this
    · have : ((k : ℝ) + P) * bin ≤ (edge j / bin + overlap * ((centre j - edge j) / bin) + 0.5) * bin := mul_le_mul_of_nonneg_right (by linarith) hb.le
      rw [x2]
      calc _ ≤ _ := this
        _ = _ := by rw [add_mul, add_mul, ← x1]
  have lo : ∀ (z : ℤ) (c : ℝ), i * bin ≤ c → c < (z : ℝ) * bin → (i : ℤ) < z := by
    intro z c h1 h2
    have : (i : ℝ) < z := lt_of_mul_lt_mul_right (lt_of_le_of_lt h1 h2) hb.le
    exact_mod_cast this
  have hi' : ∀ (z : ℤ) (c : ℝ), c ≤ i * bin → (z : ℝ) * bin ≤ c → z ≤ (i : ℤ) := by
    intro z c h1 h2
    have : (z : ℝ) ≤ i := le_of_mul_le_mul_right (h2.trans h1) hb
    exact_mod_cast this
  refine ⟨fun j hj hlow => ?_, fun j hj hhigh => ?_, fun r hr h1 h2 => ?_⟩
  · obtain ⟨k, P, hk, c1, -⟩ := get j hj
    exact (mode_zero_one mode g0 g hm _ i).1 (b1 j _ hk (lo _ _ hlow c1))
  · obtain ⟨k, P, hk, -, c2⟩ := get j hj
    exact (mode_zero_one mode g0 g hm _ i).1 (b2 j _ hk (hi' _ _ hhigh c2))
  · refine (mode_zero_one mode g0 g hm _ i).2.1 (b3 r (by omega) (fun j hj kp hkp => ?_) fun kp hkp => ?_)
    · obtain ⟨k, P, hk, -, c2⟩ := get j (by omega)
      rw [hk] at hkp; cases hkp
      exact hi' _ _ (h1 j hj) c2
    · have hlt : r < fc.length := by
        by_contra hc
        rw [List.getElem?_eq_none (by omega)] at hkp
        cases hkp
      obtain ⟨k, P, hk, c1, -⟩ := get r hlt
      rw [hk] at hkp; cases hkp
      exact lo _ _ (h2 hlt) c1

/-- The bank with one transition around 70.7 Hz: at 150 Hz the first band has gain zero and the second gain one; at 25 Hz it is the other way round. -/
example : ∃ g, filterbank 1 4801 48000 [100] .energy 0.5 2 = .ok g ∧ g 0 30 = 0 ∧ g 1 30 = 1 ∧ g 0 5 = 1 ∧ g 1 5 = 0 := by
  obtain ⟨g, hg⟩ := example_bank .energy (by decide)
  have s1 : (1.414 : ℝ) < √2 := by rw [lt_sqrt (by norm_num)]; norm_num
  have s2 : √2 < (1.415 : ℝ) := by rw [sqrt_lt' (by norm_num)]; norm_num
  have hs : (√2) * √2 = 2 := mul_self_sqrt (by norm_num)
  have he : (100 : ℝ) * 2 ^ ((2 * ((0 : ℕ) : ℝ) - 1) / (2 * 1)) = 50 * √2 := by
    rw [show (2 * ((0 : ℕ) : ℝ) - 1) / (2 * 1) = -(1 / 2) by norm_num, rpow_neg (by norm_num), ← sqrt_eq_rpow]
    have : √2 ≠ 0 := by linarith
    field_simp; nlinarith
  have hc : (100 : ℝ) * 2 ^ (((0 : ℕ) : ℝ) / 1) = 100 := by norm_num
  have key := fun i hi => C136_bands 1 48000 100 100 0.5 4801 2 [100] .energy g le_rfl (by norm_num) (by norm_num) (by norm_num) (by norm_num) example_band.1 hg i hi
    5 (by norm_num) _ _ (fun _ => rfl) (fun _ => rfl)
  obtain ⟨a1, a2, a3⟩ := key 30 (by norm_num)
  obtain ⟨b1, b2, b3⟩ := key 5 (by norm_num)
  simp only [List.length_singleton, List.length_cons, List.length_nil] at a1 a2 a3 b1 b2 b3
  refine ⟨g, hg, a2 0 (by norm_num) ?_, a3 1 (by norm_num) ?_ (by norm_num), b3 0 (by norm_num) (by simp) ?_, b1 0 (by norm_num) ?_⟩
  · rw [he, hc]; norm_num; linarith
  · intro j hj
    obtain rfl : j = 0 := by omega
    rw [he, hc]; norm_num; linarith
  · intro _
    rw [he, hc]; norm_num; linarith
  · rw [he, hc]; norm_num; linarith

/-! ### When the bank fits the frequency axis -/

/-- `P` is the integer nearest to `x`, the even one if there are two. -/
def RoundsTo (x : ℝ) (P : ℤ) : Prop := |x - P| ≤ 1 / 2 ∧ (|x - P| = 1 / 2 → P % 2 = 0)

theorem npRound_rounds (x : ℝ) (P : ℤ) : RoundsTo x P ↔ npRound x = P := by
  have h1 := Int.floor_le x
  have h2 := Int.lt_floor_add_one x
  have hself : RoundsTo x (npRound x) := by
    obtain ⟨n1, n2⟩ := npRound_near x
    refine ⟨by rw [abs_le]; constructor <;> linarith, fun h => ?_⟩
    unfold npRound at h ⊢
    split_ifs at h ⊢ with c1 c2 c3
    · rw [abs_of_nonneg (by linarith)] at h; linarith
    · push_cast at h
      rw [abs_of_nonpos (by linarith)] at h; linarith
    · exact c3
    · omega
  constructor
  · rintro ⟨a, b⟩
    obtain ⟨c, d⟩ := hself
    by_contra hne
    have a' := abs_le.1 a
    have c' := abs_le.1 c
    have hd : |(npRound x : ℝ) - P| ≤ 1 := by rw [abs_le]; constructor <;> linarith [a'.1, a'.2, c'.1, c'.2]
    have hd' : |npRound x - P| ≤ 1 := by exact_mod_cast hd
    have hcase : npRound x = P + 1 ∨ npRound x = P - 1 := by
      rw [abs_le] at hd'; omega
    have e1 : |x - P| = 1 / 2 := by
      rcases hcase with h | h
      · have hr : (npRound x : ℝ) = P + 1 := by exact_mod_cast h
        rw [hr] at c'
        rw [abs_of_nonneg (by linarith [c'.1])]; linarith [c'.1, a'.2]
      · have hr : (npRound x : ℝ) = P - 1 := by exact_mod_cast h
        rw [hr] at c'
        rw [abs_of_nonpos (by linarith [c'.2])]; linarith [c'.2, a'.1]
    have e2 : |x - npRound x| = 1 / 2 := by
      rcases hcase with h | h
      · have hr : (npRound x : ℝ) = P + 1 := by exact_mod_cast h
        rw [hr] at c' ⊢
        rw [abs_of_nonpos (by linarith [a'.2])]; linarith [c'.1, a'.2]
      · have hr : (npRound x : ℝ) = P - 1 := by exact_mod_cast h
        rw [hr] at c' ⊢
        rw [abs_of_nonneg (by linarith [a'.1])]; linarith [c'.2, a'.1]
    have := b e1
    have := d e2
    omega
  · rintro rfl; exact hself

theorem band_bins (n fs overlap f : ℝ) (Nout : ℕ) (hn : 1 ≤ n) (hN : 2 ≤ Nout) (hfs : 0 < fs) (bin edge : ℝ) (hbin : bin = fs / (2 * ((Nout : ℝ) - 1)))
    (hedge : edge = f / 2 ^ (1 / (2 * n))) :
    bandK n fs (((Nout : ℝ) - 1) * 2) f = ⌊edge / bin⌋ ∧ bandP n fs (((Nout : ℝ) - 1) * 2) overlap f = npRound (overlap * (f - edge) / bin) := by
  obtain ⟨f1, f2⟩ := band_forms n fs (((Nout : ℝ) - 1) * 2) overlap f hn hfs
  obtain ⟨w1, -, -⟩ := width_facts n hn
  have hr : (2 : ℝ) ^ (1 / (2 * n)) ≠ 0 := by linarith
  have hNr : (2 : ℝ) ≤ Nout := by exact_mod_cast hN
  have : (Nout : ℝ) - 1 ≠ 0 := by linarith
  have hX : ((Nout : ℝ) - 1) * 2 * f / ((2 : ℝ) ^ (1 / (2 * n)) * fs) = edge / bin := by
    rw [hedge, hbin]
    field_simp
  refine ⟨by rw [f1, hX], ?_⟩
  rw [f2, hX]
  congr 1
  have : f = edge * 2 ^ (1 / (2 * n)) := by rw [hedge]; field_simp
  rw [this]
  ring

/-- **C54**: the filter bank is returned exactly when every transition (the lower edge of a band in bins, plus half its width rounded to bins) ends on the frequency
axis, transitions of a single bin excepted; otherwise the slices do not fit and `ValueError` is raised. -/
theorem C54_ok_iff (n fs fHigh fLow overlap : ℝ) (Nout slope : ℕ) (fc : List ℝ) (mode : FbMode) (hmode : mode ≠ .other)
    (hn : 1 ≤ n) (hN : 2 ≤ Nout) (hfs : 0 < fs) (hf : 0 < fLow) (hov : 0 ≤ overlap) (ho : overlap ≤ 0.5)
    (hfc : Centers n fHigh fLow fc) (bin : ℝ) (hbin : bin = fs / (2 * ((Nout : ℝ) - 1))) (edge : ℝ → ℝ) (hedge : ∀ f, edge f = f / 2 ^ (1 / (2 * n))) :
    ((∃ g, filterbank n Nout fs fc mode overlap slope = .ok g) ↔
      ∀ f ∈ fc, ∀ P : ℤ, RoundsTo (overlap * (f - edge f) / bin) P → P = 0 ∨ ⌊edge f / bin⌋ + P < Nout) ∧
    ((¬ ∃ g, filterbank n Nout fs fc mode overlap slope = .ok g) → filterbank n Nout fs fc mode overlap slope = .error .valueError) := by
  obtain ⟨h1, h2⟩ := bank_ok_iff n fs fHigh fLow overlap Nout slope fc mode hmode hn hN hfs hf hov ho hfc
  refine ⟨h1.trans (forall₂_congr fun f _ => ?_), h2⟩
  obtain ⟨b1, b2⟩ := band_bins n fs overlap f Nout hn hN hfs bin (edge f) hbin (hedge f)
  simp only [b1, b2, npRound_rounds, forall_eq']

/-- **C54**: the bank is returned whenever the largest possible transition, around `f_high`, fits below half the sampling rate. -/
theorem C54_fits (n fs fHigh fLow overlap : ℝ) (Nout slope : ℕ) (fc : List ℝ) (mode : FbMode) (hmode : mode ≠ .other)
    (hn : 1 ≤ n) (hN : 2 ≤ Nout) (hfs : 0 < fs) (hf : 0 < fLow) (hov : 0 ≤ overlap) (ho : overlap ≤ 0.5)
    (hfc : Centers n fHigh fLow fc) (hlow : fLow / 2 ^ (1 / (2 * n)) ≤ fHigh) (bin : ℝ) (hbin : bin = fs / (2 * ((Nout : ℝ) - 1)))
    (hfit : fHigh * (1 + overlap * (2 ^ (1 / (2 * n)) - 1)) + bin / 2 ≤ fs / 2) :
    ∃ g, filterbank n Nout fs fc mode overlap slope = .ok g := by
  have hNr : (2 : ℝ) ≤ Nout := by exact_mod_cast hN
  have hb : 0 < bin := by rw [hbin]; apply div_pos hfs; linarith
  obtain ⟨w1, -, w3⟩ := width_facts n hn
  rw [(C54_ok_iff n fs fHigh fLow overlap Nout slope fc mode hmode hn hN hfs hf hov ho hfc bin hbin _ fun _ => rfl).1]
  intro f hfm P hP
  right
  obtain ⟨i, hi, rfl⟩ := List.getElem_of_mem hfm
  obtain ⟨c0, c1, c2⟩ := centers_get n fHigh fLow fc hfc
  have hedge : fc[i] / 2 ^ (1 / (2 * n)) ≤ fHigh := by
    rcases i with _ | i
    · have := c1 0 hi
      rw [List.getD_eq_getElem _ _ hi] at this
      rw [this]; simpa using hlow
    · have a1 := c1 (i + 1) hi
      have a0 := c1 i (by omega)
      have a2 := c2 i hi
      rw [List.getD_eq_getElem _ _ hi] at a1
      rw [a1, pow_succ, ← mul_assoc, ← a0, w3]
      have : (2 : ℝ) ^ (1 / (2 * n)) ≠ 0 := by linarith
      calc fc.getD i 0 * ((2 : ℝ) ^ (1 / (2 * n))) ^ 2 / 2 ^ (1 / (2 * n)) = fc.getD i 0 * 2 ^ (1 / (2 * n)) := by field_simp
        _ ≤ fHigh := a2.le
  clear c1 c2 hfc hlow w3
  generalize (2 : ℝ) ^ (1 / (2 * n)) = r at *
  have hr0 : 0 < r := by linarith
  obtain ⟨e, he⟩ : ∃ e : ℝ, e = fc[i] / r := ⟨_, rfl⟩
  have hfe : fc[i] = e * r := by rw [he]; field_simp
  rw [← he] at hedge hP ⊢
  rw [hfe] at hP
  have k1 := Int.floor_le (e / bin)
  have p2 := (abs_le.1 hP.1).1
  have hx : (e / bin + overlap * (e * r - e) / bin + 1 / 2) * bin ≤ fs / 2 := by
    have hx1 : (e / bin + overlap * (e * r - e) / bin + 1 / 2) * bin = e * (1 + overlap * (r - 1)) + bin / 2 := by field_simp
    rw [hx1]
    have : e * (1 + overlap * (r - 1)) ≤ fHigh * (1 + overlap * (r - 1)) := mul_le_mul_of_nonneg_right hedge (by nlinarith)
    linarith
  have hfs' : fs / 2 = ((Nout : ℝ) - 1) * bin := by
    rw [hbin]
    have : (Nout : ℝ) - 1 ≠ 0 := by linarith
    field_simp
  have h4 : e / bin + overlap * (e * r - e) / bin + 1 / 2 ≤ (Nout : ℝ) - 1 := le_of_mul_le_mul_right (hx.trans hfs'.le) hb
  have h5 : ((⌊e / bin⌋ + P : ℤ) : ℝ) < Nout := by push_cast; linarith
  exact_mod_cast h5

/-- The octave bank from 100 Hz to 8 kHz with the default overlap at 44.1 kHz, as in the documentation of the function. -/
example : ∃ fc g, Centers 1 8000 100 fc ∧ filterbank 1 65536 44100 fc .energy 0.5 2 = .ok g := by
  obtain ⟨fc, hfc, -⟩ := C54_terminates 1 100 8000 le_rfl (by norm_num)
  have s2 : √2 < (1.415 : ℝ) := by rw [sqrt_lt' (by norm_num)]; norm_num
  have s1 : (1.414 : ℝ) < √2 := by rw [lt_sqrt (by norm_num)]; norm_num
  have hr : (2 : ℝ) ^ ((1 : ℝ) / (2 * 1)) = √2 := by rw [sqrt_eq_rpow]; norm_num
  obtain ⟨g, hg⟩ := C54_fits 1 44100 8000 100 0.5 65536 2 fc .energy (by decide) le_rfl (by norm_num) (by norm_num) (by norm_num) (by norm_num) le_rfl hfc
    (by rw [hr, div_le_iff₀ (by linarith)]; linarith) _ rfl (by rw [hr]; norm_num; linarith)
  exact ⟨fc, g, hfc, hg⟩

/-- **C54**: near half the sampling rate the bank does not fit: with bands from 16 kHz upwards, the default `f_high` and overlap, 48 kHz and any size from
100 bins on, `frac_octave_filterbank` raises `ValueError`. -/
theorem C54_top_fails (Nout slope : ℕ) (hN : 100 ≤ Nout) (mode : FbMode) :
    ∃ fc, Centers 1 (filterHigh 48000 none) 16000 fc ∧ filterbank 1 Nout 48000 fc mode 0.5 slope = .error .valueError := by
  have s2 : √2 < (1.415 : ℝ) := by rw [sqrt_lt' (by norm_num)]; norm_num
  have s1 : (1.414 : ℝ) < √2 := by rw [lt_sqrt (by norm_num)]; norm_num
  have hr : (2 : ℝ) ^ ((1 : ℝ) / (2 * 1)) = √2 := by rw [sqrt_eq_rpow]; norm_num
  have hh : filterHigh 48000 none = 24000 := by unfold filterHigh; norm_num
  have hC : Centers 1 (filterHigh 48000 none) 16000 [16000, 32000] := by
    rw [hh]
    refine .step _ _ (by rw [hr]; linarith) ?_
    rw [show (2 : ℝ) ^ ((1 : ℝ) / 1) * 16000 = 32000 by norm_num]
    exact .stop _ (by rw [hr]; intro h; linarith)
  refine ⟨_, hC, ?_⟩
  by_cases hmode : mode = .other
  · rw [hmode]; exact (C54_reject 1 48000 0.5 Nout slope _ .other).1 (by norm_num)
  have hNr : (100 : ℝ) ≤ Nout := by exact_mod_cast hN
  obtain ⟨h1, h2⟩ := C54_ok_iff 1 48000 _ 16000 0.5 Nout slope _ mode hmode le_rfl (by omega) (by norm_num) (by norm_num) (by norm_num) le_rfl hC _ rfl _ fun _ => rfl
  apply h2
  rw [h1]
  intro H
  have := H 32000 (by simp) _ ((npRound_rounds _ _).2 rfl)
  rw [hr] at this
  have hs : √2 * √2 = 2 := mul_self_sqrt (by norm_num)
  have he : (32000 : ℝ) / √2 = 16000 * √2 := by
    have : √2 ≠ 0 := by linarith
    field_simp; nlinarith
  rw [he] at this
  obtain ⟨n1, -⟩ := npRound_near (0.5 * (32000 - 16000 * √2) / (48000 / (2 * ((Nout : ℝ) - 1))))
  have k2 := Int.lt_floor_add_one (16000 * √2 / (48000 / (2 * ((Nout : ℝ) - 1))))
  have hN1 : (0 : ℝ) < (Nout : ℝ) - 1 := by linarith
  have x1 : 0.5 * (32000 - 16000 * √2) / (48000 / (2 * ((Nout : ℝ) - 1))) = (2 - √2) / 6 * (2 * ((Nout : ℝ) - 1)) := by field_simp; ring
  have x2 : 16000 * √2 / (48000 / (2 * ((Nout : ℝ) - 1))) = √2 / 3 * (2 * ((Nout : ℝ) - 1)) := by field_simp; ring
  rw [x1] at n1 this
  rw [x2] at k2 this
  generalize npRound ((2 - √2) / 6 * (2 * ((Nout : ℝ) - 1))) = P at *
  generalize (⌊√2 / 3 * (2 * ((Nout : ℝ) - 1))⌋ : ℤ) = k at *
  rcases this with h0 | hlt
  · rw [h0] at n1
    norm_num at n1
    nlinarith
  · have hlt' : (k : ℝ) + P < Nout := by exact_mod_cast hlt
    nlinarith

/-- `C54_top_fails` with the size used by `frac_octave_filterbank` in the documentation. -/
example : ∃ fc, Centers 1 (filterHigh 48000 none) 16000 fc ∧ filterbank 1 65536 48000 fc .energy 0.5 2 = .error .valueError :=
  C54_top_fails 65536 2 (by norm_num) .energy

/-- `C54_ok_iff` and `C136_neighbours`: the octave bank from 100 Hz to 8 kHz at 44.1 kHz satisfies the criterion, and at no frequency do three bands meet. -/
example : ∃ fc g, filterbank 1 65536 44100 fc .energy 0.5 2 = .ok g ∧
    (∀ f ∈ fc, ∀ P : ℤ, RoundsTo (0.5 * (f - f / 2 ^ ((1 : ℝ) / (2 * 1))) / (44100 / (2 * (((65536 : ℕ) : ℝ) - 1)))) P →
      P = 0 ∨ ⌊f / 2 ^ ((1 : ℝ) / (2 * 1)) / (44100 / (2 * (((65536 : ℕ) : ℝ) - 1)))⌋ + P < (65536 : ℕ)) ∧
    ∀ i < 65536, ∀ r ≤ fc.length, ∀ s ≤ fc.length, g r i ≠ 0 → g s i ≠ 0 → r ≤ s + 1 := by
  obtain ⟨fc, hfc, -⟩ := C54_terminates 1 100 8000 le_rfl (by norm_num)
  have s2 : √2 < (1.415 : ℝ) := by rw [sqrt_lt' (by norm_num)]; norm_num
  have s1 : (1.414 : ℝ) < √2 := by rw [lt_sqrt (by norm_num)]; norm_num
  have hr : (2 : ℝ) ^ ((1 : ℝ) / (2 * 1)) = √2 := by rw [sqrt_eq_rpow]; norm_num
  obtain ⟨g, hg⟩ := C54_fits 1 44100 8000 100 0.5 65536 2 fc .energy (by decide) le_rfl (by norm_num) (by norm_num) (by norm_num) (by norm_num) le_rfl hfc
    (by rw [hr, div_le_iff₀ (by linarith)]; linarith) _ rfl (by rw [hr]; norm_num; linarith)
  refine ⟨fc, g, hg, ?_, fun i hi r h1 s h2 h3 h4 => ?_⟩
  · exact (C54_ok_iff 1 44100 8000 100 0.5 65536 2 fc .energy (by decide) le_rfl (by norm_num) (by norm_num) (by norm_num) (by norm_num) le_rfl hfc _ rfl _
      fun _ => rfl).1.1 ⟨g, hg⟩
  · exact (C136_neighbours 1 44100 8000 100 0.5 65536 2 fc .energy g le_rfl (by norm_num) (by norm_num) (by norm_num) (by norm_num) hfc hg i hi r s h1 h2 h3 h4).1

end Verif.Props
