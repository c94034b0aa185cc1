import Verif.Props.LevelInvariance
import Verif.Props.Signals
import Verif.Model.Interaural
import Verif.Model.MagLs
import Verif.Model.PostEq
import Verif.Model.SphereModes
import Verif.Model.PlotSpectra
import Verif.Model.PlotMaps
import Mathlib.Tactic

/-!
**C147** The unit of time does not matter: sampling rates and frequencies multiplied by `k`, times divided by `k`.
-/

namespace Verif.Props

open Real Verif.Utils Verif.Sig Verif.Process Verif.Decoder Verif.Sph Verif.Parsa

/-! #### signals -/

/-- The same samples at `k` times the rate. -/
noncomputable def relabel (k : ℝ) (m : Mono) : Mono := { m with fs := k * m.fs }

/-- The same channels at `k` times the rate. -/
noncomputable def relabelMulti (k : ℝ) (m : Multi) : Multi := { m with channels := m.channels.map (relabel k), fs := k * m.fs }

theorem cut_relabel {k : ℝ} (hk : k ≠ 0) (a b fs : ℝ) (x : List ℝ) : cut (a / k) (b / k) (k * fs) x = cut a b fs x := by
  have h : ∀ t : ℝ, t / k * (k * fs) = t * fs := fun t => by field_simp
  unfold cut
  rw [h, h]

theorem start_relabel {k : ℝ} (hk : 0 < k) (a fs : ℝ) (n : ℕ) : a / k < n / (k * fs) ↔ a < n / fs := by
  rw [show (n : ℝ) / (k * fs) = n / fs / k by rw [div_div, mul_comm]]
  exact div_lt_div_iff_of_pos_right hk

theorem trimStop_relabel (k a : ℝ) (stop dur : Option ℝ) :
    trimStop (a / k) (stop.map (· / k)) (dur.map (· / k)) = (trimStop a stop dur).map (· / k) := by
  cases dur with
  | none => rfl
  | some d => simp [trimStop, add_div]

theorem monoTrim_relabel {k : ℝ} (hk : 0 < k) (m : Mono) (start : ℝ) (stop dur : Option ℝ) :
    (relabel k m).trim (start / k) (stop.map (· / k)) (dur.map (· / k)) = (m.trim start stop dur).map (relabel k) := by
  unfold Mono.trim
  have h : start / k < (relabel k m).signal.length / (relabel k m).fs ↔ start < m.signal.length / m.fs := start_relabel hk _ _ _
  rw [trimStop_relabel]
  by_cases hs : start < m.signal.length / m.fs
  · rw [if_pos hs, if_pos (h.2 hs)]
    cases trimStop start stop dur with
    | none => rfl
    | some s => simp [relabel, Except.map, cut_relabel hk.ne']
  · rw [if_neg hs, if_neg (mt h.1 hs)]; rfl

theorem loopChannels_map (u : Mono → Mono) (f f' : ℕ → Mono → Py Mono) (cs : List Mono) (i : ℕ)
    (h : ∀ (i : ℕ), ∀ c ∈ cs, f' i (u c) = (f i c).map u) :
    loopChannels f' i (cs.map u) = ((loopChannels f i cs).1.map u, (loopChannels f i cs).2) := by
  induction cs generalizing i with
  | nil => rfl
  | cons c cs ih =>
    have h0 := h i c List.mem_cons_self
    have ih' := ih (i + 1) fun i c hc => h i c (List.mem_cons_of_mem _ hc)
    rw [List.map_cons]
    unfold loopChannels
    rw [h0]
    cases f i c with
    | error e => rfl
    | ok c' => simp [Except.map, ih']

theorem len_relabel (k : ℝ) (m : Multi) : (relabelMulti k m).len = m.len := by
  unfold Multi.len relabelMulti
  cases m.channels with
  | nil => rfl
  | cons c cs => rfl

theorem multiTrim_relabel {k : ℝ} (hk : 0 < k) (m : Multi) (start : ℝ) (stop dur : Option ℝ) :
    (relabelMulti k m).trim (start / k) (stop.map (· / k)) (dur.map (· / k)) =
      (relabelMulti k (m.trim start stop dur).1, (m.trim start stop dur).2) := by
  unfold Multi.trim
  rw [len_relabel]
  cases m.len with
  | error e => rfl
  | ok n =>
    have h : start / k < n / (relabelMulti k m).fs ↔ start < n / m.fs := start_relabel hk _ _ _
    simp only
    by_cases hs : start < n / m.fs
    · rw [if_pos hs, if_pos (h.2 hs), trimStop_relabel]
      cases trimStop start stop dur with
      | none => rfl
      | some s =>
        simp only [Option.map_some]
        have := loopChannels_map (relabel k) (fun _ c => .ok { c with signal := cut start s c.fs c.signal })
          (fun _ c => .ok { c with signal := cut (start / k) (s / k) c.fs c.signal }) m.channels 0
          (fun i c _ => by simp [relabel, Except.map, cut_relabel hk.ne'])
        unfold Multi.loop
        simp only [relabelMulti, this]
    · rw [if_neg hs, if_neg (mt h.1 hs)]

theorem trimAudio_relabel {k : ℝ} (hk : 0 < k) (m : Multi) (start stop : ℝ) :
    trimAudio (relabelMulti k m) (start / k) (stop / k) = (trimAudio m start stop).map (relabelMulti k) := by
  unfold trimAudio
  rw [len_relabel]
  cases m.len with
  | error e => rfl
  | ok n =>
    have h : start / k < n / (relabelMulti k m).fs ↔ start < n / m.fs := start_relabel hk _ _ _
    simp only
    by_cases hs : start < n / m.fs
    · rw [if_pos hs, if_pos (h.2 hs)]
      by_cases hc : m.channels.length < m.channelCount
      · rw [if_pos hc, if_pos (by simpa [relabelMulti] using hc)]; rfl
      · rw [if_neg hc, if_neg (by simpa [relabelMulti] using hc)]
        simp only [relabelMulti, Except.map, cut_relabel hk.ne']
        congr 2
        refine List.ext_getElem (by simp) fun i h1 h2 => ?_
        simp only [List.getElem_mapIdx, List.getElem_map]
        split <;> rfl
    · rw [if_neg hs, if_neg (mt h.1 hs)]; rfl

/-- A resampler that only looks at the ratio of the rates (as a polyphase or sinc resampler does). -/
def RatioOnly (rs : Resampler) : Prop := ∀ (k : ℝ), 0 < k → ∀ a b x, rs.run (k * a) (k * b) x = rs.run a b x

theorem RatioOnly.len {rs : Resampler} (h : RatioOnly rs) {k : ℝ} (hk : 0 < k) (a b : ℝ) (n : ℕ) : rs.len (k * a) (k * b) n = rs.len a b n := by
  have h1 := rs.run_length (k * a) (k * b) (List.replicate n 0)
  have h2 := rs.run_length a b (List.replicate n 0)
  rw [h k hk, List.length_replicate] at h1
  rw [List.length_replicate] at h2
  exact h1.symm.trans h2

theorem monoResample_relabel {rs : Resampler} (h : RatioOnly rs) {k : ℝ} (hk : 0 < k) (m : Mono) (fs : ℝ) :
    (relabel k m).resample rs (k * fs) = (m.resample rs fs).map (relabel k) := by
  unfold Mono.resample
  have h1 : k * fs = (relabel k m).fs ↔ fs = m.fs := by simp [relabel, hk.ne']
  by_cases he : fs = m.fs
  · rw [if_pos he, if_pos (h1.2 he)]; rfl
  · rw [if_neg he, if_neg (mt h1.1 he)]
    simp only [relabel, h.len hk, h k hk]
    split <;> rfl

theorem multiResample_relabel {rs : Resampler} (h : RatioOnly rs) {k : ℝ} (hk : 0 < k) (m : Multi) (fs : ℝ) :
    (relabelMulti k m).resample rs (k * fs) = (relabelMulti k (m.resample rs fs).1, (m.resample rs fs).2) := by
  have h1 : k * fs = (relabelMulti k m).fs ↔ fs = m.fs := by simp [relabelMulti, hk.ne']
  have h2 : (relabelMulti k m).resampled rs (k * fs) = m.resampled rs fs := by
    have hs : (relabelMulti k m).getSignals = m.getSignals := by
      unfold Multi.getSignals relabelMulti
      simp [relabel, Function.comp_def]
    unfold Multi.resampled
    rw [hs]
    refine congrArg _ (funext fun rows => ?_)
    unfold resampleRows
    cases rows with
    | nil => rfl
    | cons r rows =>
      simp only [relabelMulti, h.len hk]
      congr 1
      have : rs.run (k * m.fs) (k * fs) = rs.run m.fs fs := funext fun x => h k hk _ _ x
      rw [this]
  unfold Multi.resample
  by_cases he : fs = m.fs
  · rw [if_pos he, if_pos (h1.2 he)]
  · rw [if_neg he, if_neg (mt h1.1 he), h2]
    cases m.resampled rs fs with
    | error e => rfl
    | ok rows => simp [relabelMulti, relabel, Function.comp_def]

/-- **C147** Trimming and resampling of signals: at `k` times the rate, times divided by `k`. -/
theorem C147_signals {k : ℝ} (hk : 0 < k) (m : Mono) (M : Multi) (start : ℝ) (stop dur : Option ℝ) (s : ℝ) :
    (relabel k m).trim (start / k) (stop.map (· / k)) (dur.map (· / k)) = (m.trim start stop dur).map (relabel k) ∧
    (relabelMulti k M).trim (start / k) (stop.map (· / k)) (dur.map (· / k)) =
      (relabelMulti k (M.trim start stop dur).1, (M.trim start stop dur).2) ∧
    trimAudio (relabelMulti k M) (start / k) (s / k) = (trimAudio M start s).map (relabelMulti k) ∧
    ∀ (rs : Resampler), RatioOnly rs → ∀ fs : ℝ, (relabel k m).resample rs (k * fs) = (m.resample rs fs).map (relabel k) ∧
      (relabelMulti k M).resample rs (k * fs) = (relabelMulti k (M.resample rs fs).1, (M.resample rs fs).2) :=
  ⟨monoTrim_relabel hk m start stop dur, multiTrim_relabel hk M start stop dur, trimAudio_relabel hk M start s,
    fun _ h fs => ⟨monoResample_relabel h hk m fs, multiResample_relabel h hk M fs⟩⟩

/-! #### filter bank -/

theorem centers_scale {k : ℝ} (hk : 0 < k) {n fHigh fc : ℝ} {l : List ℝ} (h : Centers n fHigh fc l) : Centers n (k * fHigh) (k * fc) (l.map (k * ·)) := by
  induction h with
  | stop fc h => exact .stop _ fun h' => h (by rw [mul_assoc] at h'; exact lt_of_mul_lt_mul_left h' hk.le)
  | step fc l h _ ih =>
    refine .step _ _ (by rw [mul_assoc]; exact mul_lt_mul_of_pos_left h hk) ?_
    rw [show 2 ^ (1 / n) * (k * fc) = k * (2 ^ (1 / n) * fc) by ring]
    exact ih

theorem bandK_scale {k : ℝ} (hk : k ≠ 0) (n fs N f : ℝ) : bandK n (k * fs) N (k * f) = bandK n fs N f := by
  unfold bandK
  congr 1
  rw [show N * (2 * π * (k * f / 2 ^ (1 / (2 * n)))) = k * (N * (2 * π * (f / 2 ^ (1 / (2 * n))))) by ring, show 2 * π * (k * fs) = k * (2 * π * fs) by ring,
    mul_div_mul_left _ _ hk]

theorem bandP_scale {k : ℝ} (hk : k ≠ 0) (n fs N o f : ℝ) : bandP n (k * fs) N o (k * f) = bandP n fs N o f := by
  unfold bandP
  congr 2
  rw [show N * (2 * π * (k * f) - 2 * π * (k * f / 2 ^ (1 / (2 * n)))) = k * (N * (2 * π * f - 2 * π * (f / 2 ^ (1 / (2 * n))))) by ring,
    show 2 * π * (k * fs) = k * (2 * π * fs) by ring, mul_div_mul_left _ _ hk]

/-- A row of the frequency table in the other unit. -/
noncomputable def scaleRow (k : ℝ) (r : ℝ × ℝ × ℝ) : ℝ × ℝ × ℝ := (k * r.1, k * r.2.1, k * r.2.2)

theorem ffRow_scale (k n f : ℝ) : ffRow n (k * f) = scaleRow k (ffRow n f) := by
  unfold ffRow scaleRow; ext <;> simp only <;> ring

theorem getD_scale (k : ℝ) (fc : List ℝ) (i : ℕ) : (fc.map (k * ·)).getD i 0 = k * fc.getD i 0 := by
  rw [List.getD_eq_getElem?_getD, List.getD_eq_getElem?_getD, List.getElem?_map]
  cases fc[i]? <;> simp

theorem ffTable_tail {k : ℝ} (hk : 0 < k) (n fs : ℝ) (fc : List ℝ) : (ffTable n (k * fs) (fc.map (k * ·))).tail = (ffTable n fs fc).tail.map (scaleRow k) := by
  have hsq : ∀ x : ℝ, √(k * x * (k * fs / 2)) = k * √(x * (fs / 2)) := fun x => by
    rw [show k * x * (k * fs / 2) = k ^ 2 * (x * (fs / 2)) by ring, Real.sqrt_mul (by positivity), Real.sqrt_sq hk.le]
  unfold ffTable
  simp only [getD_scale, List.length_map, List.tail_cons, List.map_append, ffRow_scale]
  rw [← List.map_dropLast, List.map_map, List.map_map]
  congr 1
  · exact List.map_congr_left fun f _ => ffRow_scale k n f
  · simp only [scaleRow, List.map_cons, List.map_nil, hsq]
    rw [mul_div_assoc]

/-- **C147** The filter bank: centre frequencies scale with the limits, the gains depend on the ratios to the sampling rate only, and so do the levels of the subbands.
All entries of the table of band limits scale but one, the centre of the lowest band. -/
theorem C147_filterbank {k : ℝ} (hk : 0 < k) (n fs : ℝ) (fc : List ℝ) :
    (∀ fHigh f : ℝ, Centers n (k * fHigh) (k * f) (fc.map (k * ·)) ↔ Centers n fHigh f fc) ∧
    (∀ (Nout : ℕ) (mode : Process.FbMode) (overlap : ℝ) (slope : ℕ), filterbank n Nout (k * fs) (fc.map (k * ·)) mode overlap slope = filterbank n Nout fs fc mode overlap slope) ∧
    (ffTable n (k * fs) (fc.map (k * ·))).tail = (ffTable n fs fc).tail.map (scaleRow k) ∧
    (∃ e : ℝ, (ffTable n fs fc).head? = some (0, √e, e) ∧ (ffTable n (k * fs) (fc.map (k * ·))).head? = some (0, √(k * e), k * e)) ∧
    (∀ (B N : ℕ) (x : Fin B → Fin N → ℂ) (width : Fin B → ℝ) (power : Bool) (b : Fin B),
      subbandLevels x (k • width) (k * fs) power b = subbandLevels x width fs power b) := by
  refine ⟨fun fHigh f => ⟨fun h => ?_, centers_scale hk⟩, fun Nout mode overlap slope => ?_, ffTable_tail hk n fs fc, ?_, ?_⟩
  · have := centers_scale (inv_pos.2 hk) h
    simpa [← mul_assoc, inv_mul_cancel₀ hk.ne', Function.comp_def] using this
  · unfold filterbank
    rw [List.map_map]
    simp only [Function.comp_def, bandK_scale hk.ne', bandP_scale hk.ne']
  · unfold ffTable
    simp only [getD_scale, ffRow_scale, List.head?_cons, one_mul]
    exact ⟨_, rfl, rfl⟩
  · intro B N x width power b
    have h : ∀ y : ℝ, 1 / (k * width b) * (k * fs) = 1 / width b * fs := fun _ => by
      rw [one_div, mul_inv, one_div]; field_simp
    have h' : 1 / (N : ℝ) * 1 / (k * width b) * (k * fs) = 1 / N * 1 / width b * fs := by
      by_cases hw : width b = 0
      · simp [hw]
      · field_simp
    unfold subbandLevels
    simp only [Pi.smul_apply, smul_eq_mul, h 0, h']

/-- **C147** (violated) The centre of the lowest band is the geometric mean of its upper limit and the number one: with all frequencies four times as high it is twice
as high.  So the blocks of that band in `post_equalization` do not last equally many samples. -/
theorem C147_lowest_fails (n : ℝ) : ∃ c : ℝ, 0 < c ∧ ((ffTable n 48000 [100]).head?.map fun r => r.2.1) = some c ∧
    ((ffTable n (4 * 48000) [4 * 100]).head?.map fun r => r.2.1) = some (2 * c) := by
  have hp : (0 : ℝ) < 2 ^ (1 / (2 * n)) := Real.rpow_pos_of_pos two_pos _
  refine ⟨√(100 / 2 ^ (1 / (2 * n))), by positivity, by simp [ffTable, ffRow], ?_⟩
  simp only [ffTable, ffRow, List.head?_cons, Option.map_some, List.getD_cons_zero, one_mul]
  rw [mul_div_assoc, show (4 : ℝ) = 2 ^ 2 by norm_num, Real.sqrt_mul (by positivity), Real.sqrt_sq two_pos.le]

/-- **C147** (violated) The upper limit of the bands is half the sampling rate rounded down to a whole number of Hz: at 11025 Hz the bands end earlier than at twice that rate with
twice the lowest frequency. -/
theorem C147_alias_fails : ∃ f : ℝ, 0 < f ∧ Centers 1 (filterHigh 11025 none) f [f] ∧ ¬ Centers 1 (filterHigh (2 * 11025) none) (2 * f) [2 * f] := by
  have h1 : filterHigh 11025 none = 5512 := by
    unfold filterHigh
    have : ⌊(11025 : ℝ) / 2⌋ = 5512 := by rw [Int.floor_eq_iff]; norm_num
    simp only [this]; norm_num
  have h2 : filterHigh (2 * 11025) none = 11025 := by
    unfold filterHigh
    have : ⌊(2 * 11025 : ℝ) / 2⌋ = 11025 := by rw [Int.floor_eq_iff]; norm_num
    simp only [this]; norm_num
  have hp : (0 : ℝ) < 2 ^ (1 / (2 * 1) : ℝ) := Real.rpow_pos_of_pos two_pos _
  refine ⟨5512.2 / 2 ^ (1 / (2 * 1) : ℝ), by positivity, ?_, ?_⟩
  · rw [h1]
    exact .stop _ (by rw [div_mul_cancel₀ _ hp.ne']; norm_num)
  · rw [h2]
    intro h
    have hlt : 2 * (5512.2 / 2 ^ (1 / (2 * 1) : ℝ)) * 2 ^ (1 / (2 * 1) : ℝ) < (11025 : ℝ) := by
      rw [mul_assoc, div_mul_cancel₀ _ hp.ne']; norm_num
    cases h with
    | stop _ h => exact h hlt
    | step _ l _ h => cases h

/-- **C147** (what holds of the upper limit) With an even number of Hz in both units the limit scales. -/
theorem C147_alias_partial {k : ℝ} (hk : 0 < k) (a b : ℤ) (hab : k * (2 * a) = 2 * b) (f : Option ℝ) :
    filterHigh (k * (2 * a)) (f.map (k * ·)) = k * filterHigh (2 * a) f := by
  have ha : ⌊(2 * a : ℝ) / 2⌋ = a := by rw [mul_div_cancel_left₀ _ two_ne_zero, Int.floor_intCast]
  have hb : ⌊(k * (2 * a) : ℝ) / 2⌋ = b := by rw [hab, mul_div_cancel_left₀ _ two_ne_zero, Int.floor_intCast]
  have hb' : (b : ℝ) = k * a := by linarith
  cases f with
  | none => simp only [filterHigh, Option.map_none, ha, hb, hb']
  | some f => simp only [filterHigh, Option.map_some, ha, hb, hb', mul_min_of_nonneg _ _ hk.le]

/-! #### responses -/

/-- A band-pass that only looks at the ratio of the cut-off frequencies to the sampling rate (as `signal.butter` does). -/
def BandPass.RatioOnly (bp : BandPass) : Prop := ∀ k : ℝ, 0 < k → ∀ (fs : ℝ) (fc : ℝ × ℝ) x, bp.run (k * fs) (k * fc.1, k * fc.2) x = bp.run fs fc x

theorem mapM_post {α β γ : Type} (f : α → Py β) (g : β → γ) (l : List α) : l.mapM (fun x => (f x).map g) = (l.mapM f).map (List.map g) := by
  induction l with
  | nil => rfl
  | cons a l ih =>
    rw [List.mapM_cons, List.mapM_cons, ih]
    cases f a with
    | error e => rfl
    | ok b => cases l.mapM f <;> rfl

/-- **C147** HRIR sets at `k` times the rate: the same level differences and the same decoder, time differences divided by `k`. -/
theorem C147_hrirs {k : ℝ} (hk : 0 < k) (h : HRIRs) (bp : BandPass) (hb : BandPass.RatioOnly bp) (rs : Resampler) (hr : RatioOnly rs) (fc : ℝ × ℝ) :
    (∀ todb, ildsFromHrirs bp { h with fs := k * h.fs } (k * fc.1, k * fc.2) todb = ildsFromHrirs bp h fc todb) ∧
    (∀ up, itdsFromHrirs rs bp { h with fs := k * h.fs } (k * fc.1, k * fc.2) up = (itdsFromHrirs rs bp h fc up).map fun v => v.map (· / k)) ∧
    (∀ (pinv : (m n : ℕ) → Matrix (Fin m) (Fin n) ℝ → Matrix (Fin n) (Fin m) ℝ) (N : ℕ) (f : ℝ) (cont : HfCont) (hfDelay : ℝ × ℝ),
      maglsBin pinv { h with fs := k * h.fs } N (some (k * f)) cont hfDelay = maglsBin pinv h N (some f) cont hfDelay) := by
  have hbf : ∀ fs : ℝ, bp.run (k * fs) (k * fc.1, k * fc.2) = bp.run fs fc := fun fs => funext fun x => hb k hk fs fc x
  refine ⟨fun todb => ?_, fun up => ?_, fun pinv N f cont hfDelay => ?_⟩
  · unfold ildsFromHrirs
    simp only [hbf]
  · have hu : up * (k * h.fs) = k * (up * h.fs) := by ring
    have hrf : rs.run (k * h.fs) (k * (up * h.fs)) = rs.run h.fs (up * h.fs) := funext fun x => hr k hk _ _ x
    have hi : ∀ l r : List ℝ, itdOf (k * (up * h.fs)) l r = (itdOf (up * h.fs) l r).map (· / k) := by
      intro l r
      unfold itdOf
      cases correlateSame (l.map (· ^ 2)) (r.map (· ^ 2)) with
      | error e => rfl
      | ok c =>
        change (npArgmax c).map _ = ((npArgmax c).map _).map _
        cases npArgmax c with
        | error e => rfl
        | ok i => simp only [Except.map, div_div]; rw [mul_comm k]
    unfold itdsFromHrirs
    simp only [hu, hrf, hbf, hi]
    cases (h.left.rows.map (rs.run h.fs (up * h.fs))).mapM (bp.run (up * h.fs) fc) with
    | error e => rfl
    | ok l =>
      cases (h.right.rows.map (rs.run h.fs (up * h.fs))).mapM (bp.run (up * h.fs) fc) with
      | error e => rfl
      | ok r =>
        exact mapM_post (fun p : List ℝ × List ℝ => itdOf (up * h.fs) p.1 p.2) (· / k) (l.zip r)
  · have hc : ∀ n : ℕ, magCut n (k * h.fs) (k * f) = magCut n h.fs f := by
      intro n
      unfold magCut
      have hl : ((List.range (magBins n)).map fun j : ℕ => -|(j : ℝ) * (k * h.fs) / n - k * f|) =
          ((List.range (magBins n)).map fun j : ℕ => -|(j : ℝ) * h.fs / n - f|).map (k * ·) := by
        rw [List.map_map]
        refine List.map_congr_left fun j _ => ?_
        simp only [Function.comp]
        rw [show (j : ℝ) * (k * h.fs) / n - k * f = k * ((j : ℝ) * h.fs / n - f) by ring, abs_mul, abs_of_pos hk]
        ring
      rw [hl]
      exact npArgmax_scale hk _
    unfold maglsBin
    simp only [Option.getD_some, hc]

/-- **C147** The rest: noise pulses, compensation for a sphere, frequency and time axes of plots. -/
theorem C147_rest {k : ℝ} (hk : 0 < k) :
    (∀ (pinken : List ℝ → List ℝ) (white : ℕ → List ℝ) (tNoise tPause fs : ℝ) (reps : ℕ) (tFade : ℝ) (pink normalize : Bool),
      pulsedNoise pinken white (tNoise / k) (tPause / k) (k * fs) reps (tFade / k) pink normalize = pulsedNoise pinken white tNoise tPause fs reps tFade pink normalize) ∧
    (∀ (N : ℕ) (f : List ℝ) (r0 : ℝ) (w : Option (List ℝ)), colorationCompensation N (f.map (k * ·)) (r0 / k) w = colorationCompensation N f r0 w) ∧
    (∀ (x : List (List ℝ)) (fs : ℝ) (scaleMag todb : Bool) (smoothing : Option ℤ) (ylim : Plot.YLim) (labels : Plot.Labels),
      Plot.spectrum x (k * fs) scaleMag todb smoothing ylim labels =
        (Plot.spectrum x fs scaleMag todb smoothing ylim labels).map fun c => { c with freq := c.freq.map (k * ·) }) ∧
    (∀ (azi zen : List ℝ) (p : Option (List ℝ)) (size fs : ℝ), Plot.doa azi zen p size none (some (k * fs)) =
      (Plot.doa azi zen p size none (some fs)).map fun r => (r.1.map fun d => { d with color := d.color / k }, r.2)) := by
  refine ⟨?_, ?_, ?_, ?_⟩
  · intro pinken white tNoise tPause fs reps tFade pink normalize
    have h : ∀ t : ℝ, k * fs * (t / k) = fs * t := fun t => by field_simp
    unfold pulsedNoise
    simp only [h]
  · intro N f r0 w
    have h : ∀ x : ℝ, krOf (k * x) (r0 / k) = krOf x r0 := fun x => by unfold krOf; field_simp
    unfold colorationCompensation
    rw [List.getLast?_map]
    cases f.getLast? with
    | none => rfl
    | some last =>
      simp only [Option.map_some, h, List.mapM_map, Function.comp_def]
  · intro x fs scaleMag todb smoothing ylim labels
    have hfreq : ∀ n : ℕ, Plot.rfftfreq n (k * fs) = (Plot.rfftfreq n fs).map (k * ·) := fun n => by
      unfold Plot.rfftfreq
      rw [List.map_map]
      exact List.map_congr_left fun i _ => by simp only [Function.comp]; ring
    have hresp : ∀ (freq : List ℝ) (mag : List (List ℝ)), Plot.freqResp (freq.map (k * ·)) mag todb smoothing ylim labels =
        (Plot.freqResp freq mag todb smoothing ylim labels).map fun c => { c with freq := c.freq.map (k * ·) } := by
      intro freq mag
      unfold Plot.freqResp
      simp only [List.length_map]
      split
      · cases Plot.legendOf labels (Plot.respCurves mag todb smoothing).length smoothing with
        | error e => rfl
        | ok lg =>
          cases ylim with
          | limits lo hi => rfl
          | below r =>
            change ((Plot.npMax (Plot.respCurves mag todb smoothing).flatten).map _).map _ = (((Plot.npMax (Plot.respCurves mag todb smoothing).flatten).map _).map _).map _
            cases Plot.npMax (Plot.respCurves mag todb smoothing).flatten <;> rfl
      · rfl
    unfold Plot.spectrum
    cases x with
    | nil => rfl
    | cons x0 xs =>
      simp only
      split
      · rfl
      · cases (x0 :: xs).mapM (Plot.magSpectrum x0.length scaleMag) with
        | error e => rfl
        | ok specs =>
          change Plot.freqResp (Plot.rfftfreq x0.length (k * fs)) _ _ _ _ _ = _
          rw [hfreq, hresp]
          rfl
  · intro azi zen p size fs
    have hcol : ∀ n : ℕ, Plot.doaColors none (some (k * fs)) n = (Plot.doaColors none (some fs) n).map (· / k) := fun n => by
      unfold Plot.doaColors
      simp only
      rw [List.map_map]
      refine List.map_congr_left fun i _ => ?_
      simp only [Function.comp]
      rw [show (n : ℝ) / (k * fs) = n / fs / k by rw [div_div, mul_comm]]
      ring
    have hget : ∀ (c : List ℝ) (i : ℕ), (c.map (· / k)).getD i 0 = c.getD i 0 / k := fun c i => by
      rw [List.getD_eq_getElem?_getD, List.getD_eq_getElem?_getD, List.getElem?_map]
      cases c[i]? <;> simp
    unfold Plot.doa
    simp only [hcol, List.length_map, hget]
    cases Plot.doaSizes p azi.length size with
    | error e => rfl
    | ok s =>
      change (if _ then _ else _) = Except.map _ (if _ then _ else _)
      split
      · simp [Except.map, Function.comp_def]
      · rfl

/-! #### examples -/

/-- `C147_signals`: three samples in a second are the same samples in a millisecond; the last two are kept. -/
example : (relabel 1000 ⟨[1, 2, 3], 3⟩).trim (1 / 3 / 1000) (some (1 / 1000)) none = .ok ⟨[2, 3], 1000 * 3⟩ := by
  have h := (C147_signals (k := 1000) (by norm_num) ⟨[1, 2, 3], 3⟩ ⟨[], 1, 0⟩ (1 / 3) (some 1) none 0).1
  simp only [Option.map_some, Option.map_none] at h
  rw [h]
  have h1 : pyInt (1 / 3 * 3 : ℝ) = 1 := by
    rw [pyInt_of_nonneg (by norm_num), show (1 / 3 * 3 : ℝ) = ((1 : ℕ) : ℝ) by norm_num, Nat.floor_natCast]; rfl
  have h2 : pyInt (1 * 3 : ℝ) = 3 := by
    rw [pyInt_of_nonneg (by norm_num), show (1 * 3 : ℝ) = ((3 : ℕ) : ℝ) by norm_num, Nat.floor_natCast]; rfl
  unfold Mono.trim
  rw [if_pos (by norm_num)]
  simp only [trimStop, cut, h1, h2]
  rfl

/-- `C147_signals`: a resampler that looks at the ratio only. -/
example : ∃ rs : Resampler, RatioOnly rs ∧ rs.run 2 4 [1, 2] = [1, 2, 0, 0] := by
  classical
  refine ⟨⟨fun a b n => if b = 2 * a then 2 * n else n, fun a b x => if b = 2 * a then x ++ List.replicate x.length 0 else x, fun a b x => ?_⟩, fun k hk a b x => ?_, ?_⟩
  · split
    · simp; ring
    · rfl
  · have : k * b = 2 * (k * a) ↔ b = 2 * a := by
      rw [show 2 * (k * a) = k * (2 * a) by ring]; exact mul_right_inj' hk.ne'
    simp only [this]
  · norm_num
    rfl

/-- `C147_filterbank`: one octave band from 100 Hz, or from 0.1 kHz. -/
example : ∃ l : List ℝ, Centers 1 24 16 l ∧ Centers 1 (1000 * 24) (1000 * 16) (l.map (1000 * ·)) := by
  refine ⟨[16, 2 ^ (1 / 1 : ℝ) * 16], ?_⟩
  have hs : (2 : ℝ) ^ (1 / (2 * 1) : ℝ) = √2 := by rw [Real.sqrt_eq_rpow]; norm_num
  have h1 : √2 < 1.5 := by rw [Real.sqrt_lt' (by norm_num)]; norm_num
  have h2 : (1 : ℝ) < √2 := by rw [Real.lt_sqrt (by norm_num)]; norm_num
  have h : Centers 1 24 16 [16, 2 ^ (1 / 1 : ℝ) * 16] := by
    refine .step _ _ (by rw [hs]; linarith) (.stop _ ?_)
    rw [hs, show (1 / 1 : ℝ) = 1 by norm_num, Real.rpow_one]
    linarith
  exact ⟨h, ((C147_filterbank (k := 1000) (by norm_num) 1 0 _).1 24 16).2 h⟩

/-- `C147_alias_partial`: 48000 Hz and 48 kHz. -/
example : (1 / 1000 : ℝ) * (2 * ((24000 : ℤ) : ℝ)) = 2 * ((24 : ℤ) : ℝ) := by norm_num

/-- `C147_hrirs`: a band-pass that rejects cut-off frequencies above half the rate looks at the ratio only. -/
example : ∃ bp : BandPass, BandPass.RatioOnly bp ∧ bp.run 4 (1, 3) [1, 2] = .error .valueError ∧ bp.run 8 (1, 3) [1, 2] = .ok [1, 2] := by
  classical
  refine ⟨⟨fun fs fc x => if fc.2 < fs / 2 then .ok x else .error .valueError, fun fs fc x y h => ?_⟩, fun k hk fs fc x => ?_, ?_, ?_⟩
  · split at h
    · cases h; rfl
    · cases h
  · have : k * fc.2 < k * fs / 2 ↔ fc.2 < fs / 2 := by
      rw [mul_div_assoc]; exact mul_lt_mul_iff_right₀ hk
    simp only [this]
  · simp only; norm_num
  · simp only; norm_num

end Verif.Props
