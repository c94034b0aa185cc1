import Mathlib.Tactic
import Verif.Model.IoSsr
import Verif.Props.AudioFiles
import Verif.Props.Binauralize
import Verif.Props.Bsdm
import Verif.Props.ProcessSignals

/-!
C77 (files of binaural room impulse responses for the SoundScape Renderer).
-/

namespace Verif.Props

open Verif.Sig Verif.Io Verif.Decoder Verif.Parsa Real

/-! ### The file name -/

/-- C77: the file name ends with `.wav`, and only a missing suffix is added. -/
theorem C77_name (name : List Char) : ['.', 'w', 'a', 'v'] <:+ wavName name ∧
    (['.', 'w', 'a', 'v'] <:+ name → wavName name = name) ∧ (¬ ['.', 'w', 'a', 'v'] <:+ name → wavName name = name ++ ['.', 'w', 'a', 'v']) := by
  have key : pySlice name (-4) name.length = ['.', 'w', 'a', 'v'] ↔ ['.', 'w', 'a', 'v'] <:+ name := by
    have hs : pySlice name (-4) name.length = name.drop (name.length - 4) := by
      unfold pySlice sliceBound
      rw [if_pos (by norm_num), if_neg (by omega)]
      have h1 : (min (name.length : ℤ) name.length).toNat = name.length := by simp
      have h2 : (max 0 ((name.length : ℤ) + -4)).toNat = name.length - 4 := by omega
      rw [add_comm] at h2
      first
        | rw [h1, h2, List.take_length]
        | (rw [add_comm] at h2; rw [h1, h2, List.take_length])
    rw [hs]
    constructor
    · intro h; rw [← h]; exact List.drop_suffix _ _
    · rintro ⟨t, ht⟩
      rw [← ht]; simp
  unfold wavName
  split_ifs with h
  · exact ⟨key.1 h, fun _ => rfl, fun hn => absurd (key.1 h) hn⟩
  · exact ⟨List.suffix_append _ _, fun hs => absurd (key.2 hs) h, fun _ => rfl⟩

example : wavName ['a', '.', 'w', 'a', 'v'] = ['a', '.', 'w', 'a', 'v'] ∧ wavName ['a'] = ['a', '.', 'w', 'a', 'v'] :=
  ⟨(C77_name _).2.1 ⟨['a'], rfl⟩, (C77_name _).2.2 (by decide)⟩

/-! ### Content of the file -/

/-- A sound file with 720 channels at rate `fs`: channels `2a` and `2a+1` are left and right ear at angle `a` degrees, all scaled by one
positive factor, which is one unless a sample exceeds one; no sample of the file does. -/
structure SsrFile (fs : ℝ) (ears : ℕ → List ℝ × List ℝ) (f : SoundFile) : Prop where
  rate : f.fs = fs
  count : f.channels.length = 720
  scaled : ∃ c : ℝ, 0 < c ∧ c ≤ 1 ∧
    (∀ a < 360, f.channels.getD (2 * a) [] = (ears a).1.map (c * ·) ∧ f.channels.getD (2 * a + 1) [] = (ears a).2.map (c * ·)) ∧
    ((∀ a < 360, (∀ v ∈ (ears a).1, |v| ≤ 1) ∧ ∀ v ∈ (ears a).2, |v| ≤ 1) → c = 1)
  bounded : ∀ ch ∈ f.channels, ∀ v ∈ ch, |v| ≤ 1

theorem foldl_max (l : List ℝ) (b : ℝ) : (∀ v ∈ l, v ≤ l.foldl max b) ∧ b ≤ l.foldl max b ∧ (l.foldl max b = b ∨ l.foldl max b ∈ l) := by
  induction l generalizing b with
  | nil => simp
  | cons x l ih =>
    obtain ⟨h1, h2, h3⟩ := ih (max b x)
    rw [List.foldl_cons]
    refine ⟨?_, (le_max_left _ _).trans h2, ?_⟩
    · intro v hv
      rcases List.mem_cons.1 hv with rfl | hv
      · exact (le_max_right _ _).trans h2
      · exact h1 v hv
    · rcases h3 with h3 | h3
      · rw [h3]
        rcases max_choice b x with h | h
        · exact .inl h
        · right; rw [h]; simp
      · exact .inr (List.mem_cons_of_mem _ h3)

theorem maxAbs_ge (l : List ℝ) {v : ℝ} (hv : v ∈ l) : |v| ≤ maxAbs l :=
  (foldl_max (l.map fun v => |v|) 0).1 _ (List.mem_map_of_mem hv)

theorem maxAbs_le (l : List ℝ) (h : ∀ v ∈ l, |v| ≤ 1) : maxAbs l ≤ 1 := by
  unfold maxAbs
  rcases (foldl_max (l.map fun v => |v|) 0).2.2 with h1 | h1
  · rw [h1]; norm_num
  · obtain ⟨v, hv, he⟩ := List.mem_map.1 h1
    rw [← he]; exact h v hv

/-- The rows of all angles. -/
def pairRows (ears : ℕ → List ℝ × List ℝ) (k : ℕ) : List (List ℝ) := (List.range k).flatMap fun a => [(ears a).1, (ears a).2]

theorem pairRows_succ (ears : ℕ → List ℝ × List ℝ) (k : ℕ) : pairRows ears (k + 1) = pairRows ears k ++ [(ears k).1, (ears k).2] := by
  simp [pairRows, List.range_succ]

theorem pairRows_length (ears : ℕ → List ℝ × List ℝ) (k : ℕ) : (pairRows ears k).length = 2 * k := by
  induction k with
  | zero => rfl
  | succ k ih => rw [pairRows_succ, List.length_append, ih]; simp; ring

theorem pairRows_getD (ears : ℕ → List ℝ × List ℝ) (k a : ℕ) (h : a < k) :
    (pairRows ears k).getD (2 * a) [] = (ears a).1 ∧ (pairRows ears k).getD (2 * a + 1) [] = (ears a).2 := by
  induction k with
  | zero => omega
  | succ k ih =>
    rw [pairRows_succ]
    have hl := pairRows_length ears k
    by_cases ha : a < k
    · rw [List.getD_append _ _ _ _ (by omega), List.getD_append _ _ _ _ (by omega)]
      exact ih ha
    · obtain rfl : a = k := by omega
      rw [List.getD_append_right _ _ _ _ (by omega), List.getD_append_right _ _ _ _ (by omega), hl]
      simp

theorem pairRows_mem (ears : ℕ → List ℝ × List ℝ) (k : ℕ) (r : List ℝ) : r ∈ pairRows ears k ↔ ∃ a < k, r = (ears a).1 ∨ r = (ears a).2 := by
  simp [pairRows]

/-- Saving the normalised rows. -/
theorem finish_spec (fs : ℝ) (ears : ℕ → List ℝ × List ℝ) (n : ℕ) (hn : 1 ≤ n)
    (hl : ∀ a < 360, (ears a).1.length = n ∧ (ears a).2.length = n) :
    ∃ w, finishSsr (pairRows ears 360) fs = .ok w ∧ SsrFile fs ears w.file ∧ w.file.frames = n := by
  set rows := pairRows ears 360 with hrows
  have hlen : rows.length = 720 := pairRows_length ears 360
  have hrl : ∀ r ∈ rows, r.length = n := by
    intro r hr
    obtain ⟨a, ha, h | h⟩ := (pairRows_mem ears 360 r).1 hr
    · rw [h]; exact (hl a ha).1
    · rw [h]; exact (hl a ha).2
  -- writing any array of 720 rows of length `n`
  have hwrite : ∀ rows : List (List ℝ), rows.length = 720 → (∀ r ∈ rows, r.length = n) →
      ∃ w, saveAudio (.array (transposed rows)) (some fs) = .ok w ∧ w.file = ⟨fs, n, rows⟩ := by
    intro rows hlen hrl
    obtain ⟨w, h1, h2⟩ := save_rows ⟨rows.map fun r => ⟨r, fs⟩, fs, 720⟩ n hn (by
        intro h; have := congrArg List.length h; simp [hlen] at this) (by
        intro c hc; obtain ⟨r, hr, rfl⟩ := List.mem_map.1 hc; exact hrl r hr)
    have e : (rows.map fun r => (⟨r, fs⟩ : Mono)).map Mono.signal = rows := by
      rw [List.map_map]; exact List.map_id rows
    simp only [e] at h1 h2
    exact ⟨w, h1, h2⟩
  have hne : rows.flatten ≠ [] := by
    intro h
    rw [List.flatten_eq_nil_iff] at h
    have h0 := (pairRows_getD ears 360 0 (by norm_num)).1
    have hm : (ears 0).1 ∈ rows := (pairRows_mem ears 360 _).2 ⟨0, by norm_num, .inl rfl⟩
    have := h _ hm
    have h2 := (hl 0 (by norm_num)).1
    rw [this] at h2; simp at h2; omega
  unfold finishSsr
  rw [if_neg hne]
  by_cases hmax : 1 < maxAbs rows.flatten
  · set m := maxAbs rows.flatten with hm
    obtain ⟨w, h1, h2⟩ := hwrite (rows.map fun r => r.map fun v => v / m) (by simp [hlen]) (by
      intro r hr; obtain ⟨r', hr', rfl⟩ := List.mem_map.1 hr; simp [hrl r' hr'])
    have hm0 : 0 < m := by linarith
    refine ⟨w, ?_, ?_, by rw [h2]⟩
    · simp only [if_pos hmax]; exact h1
    refine ⟨by rw [h2], by rw [h2]; simp [hlen], ⟨1 / m, by positivity, by rw [div_le_one hm0]; exact hmax.le, ?_, ?_⟩, ?_⟩
    · intro a ha
      rw [h2]
      obtain ⟨g1, g2⟩ := pairRows_getD ears 360 a ha
      rw [← hrows] at g1 g2
      have hd : ∀ k < 720, (rows.map fun r => r.map fun v => v / m).getD k [] = (rows.getD k []).map fun v => v / m := by
        intro k hk
        rw [List.getD_eq_getElem _ _ (by simpa [hlen] using hk), List.getElem_map, List.getD_eq_getElem _ _ (by omega)]
      have hc : (fun v : ℝ => v / m) = fun v => 1 / m * v := by funext v; ring
      constructor
      · show (rows.map fun r => r.map fun v => v / m).getD (2 * a) [] = _
        rw [hd _ (by omega), g1, hc]
      · show (rows.map fun r => r.map fun v => v / m).getD (2 * a + 1) [] = _
        rw [hd _ (by omega), g2, hc]
    · intro hb
      exfalso
      have : maxAbs rows.flatten ≤ 1 := by
        apply maxAbs_le
        intro v hv
        obtain ⟨r, hr, hvr⟩ := List.mem_flatten.1 hv
        obtain ⟨a, ha, h | h⟩ := (pairRows_mem ears 360 r).1 hr
        · rw [h] at hvr; exact (hb a ha).1 v hvr
        · rw [h] at hvr; exact (hb a ha).2 v hvr
      linarith
    · rw [h2]
      intro ch hch v hv
      obtain ⟨r, hr, rfl⟩ := List.mem_map.1 hch
      obtain ⟨x, hx, rfl⟩ := List.mem_map.1 hv
      show |x / m| ≤ 1
      rw [abs_div, abs_of_pos hm0, div_le_one hm0]
      exact maxAbs_ge _ (List.mem_flatten.2 ⟨r, hr, hx⟩)
  · obtain ⟨w, h1, h2⟩ := hwrite rows hlen hrl
    refine ⟨w, ?_, ?_, by rw [h2]⟩
    · simp only [if_neg hmax]; exact h1
    refine ⟨by rw [h2], by rw [h2]; exact hlen, ⟨1, one_pos, le_refl _, ?_, fun _ => rfl⟩, ?_⟩
    · intro a ha
      rw [h2]
      obtain ⟨g1, g2⟩ := pairRows_getD ears 360 a ha
      have hc : (fun v : ℝ => 1 * v) = id := by funext v; simp
      rw [hc, List.map_id, List.map_id]
      exact ⟨g1, g2⟩
    · rw [h2]
      intro ch hch v hv
      exact (maxAbs_ge _ (List.mem_flatten.2 ⟨ch, hch, hv⟩)).trans (not_lt.1 hmax)

theorem assignPair_ok (n : ℕ) (lr : List ℝ × List ℝ) (h : lr.1.length = n ∧ lr.2.length = n) : assignPair n lr = .ok [lr.1, lr.2] := by
  unfold assignPair assignRow
  rw [if_pos h.1, if_pos h.2]; rfl

theorem ssrLoop_ok (n : ℕ) (render : ℕ → Py (List ℝ × List ℝ)) (ears : ℕ → List ℝ × List ℝ) (hr : ∀ a < 360, render a = .ok (ears a))
    (hl : ∀ a < 360, (ears a).1.length = n ∧ (ears a).2.length = n) : ssrLoop n render = .ok (pairRows ears 360) := by
  unfold ssrLoop
  rw [mapM_eq_map _ (fun a => [(ears a).1, (ears a).2]) (List.range 360) fun a ha => by
    have ha := List.mem_range.1 ha
    rw [hr a ha]
    exact assignPair_ok n _ (hl a ha)]
  show Except.ok _ = _
  rw [← List.flatMap_def]; rfl

/-- Whatever the number of jobs (at least one) and whatever the pool does, the rows are those of the serial loop. -/
theorem rows_ok (n : ℕ) (render : ℕ → Py (List ℝ × List ℝ)) (ears : ℕ → List ℝ × List ℝ) (hr : ∀ a < 360, render a = .ok (ears a))
    (hl : ∀ a < 360, (ears a).1.length = n ∧ (ears a).2.length = n) (jobs : ℤ) (hj : 1 ≤ jobs) (rows : Py (List (List ℝ)))
    (h : SsrRows n render jobs rows) : rows = .ok (pairRows ears 360) := by
  cases h with
  | serial _ => exact ssrLoop_ok n render ears hr hl
  | pool _ r hs =>
    cases hs with
    | ok ys hys =>
      rw [mapM_eq_map _ ears (List.range 360) fun a ha => hr a (List.mem_range.1 ha)] at hys
      cases hys
      show (((List.range 360).map ears).mapM (assignPair n)).map List.flatten = _
      rw [mapM_eq_map _ (fun lr => [lr.1, lr.2]) _ fun lr hlr => by
        obtain ⟨a, ha, rfl⟩ := List.mem_map.1 hlr
        exact assignPair_ok n _ (hl a (List.mem_range.1 ha))]
      show Except.ok _ = _
      rw [List.map_map, ← List.flatMap_def]; rfl
    | raises a ha e he => rw [hr a (List.mem_range.1 ha)] at he; cases he
  | untouched hj' => omega

/-! ### C77 for loudspeaker setups -/

/-- C77: `write_ssr_brirs_loudspeaker` writes, for every schedule and every number of jobs from one on, the file whose channels `2a` and
`2a + 1` are what `hull.binauralize` gives for the head turned by `a` degrees, under the given name with `.wav`. -/
theorem C77_loudspeaker {L S : ℕ} (cpus : ℕ) (name : List Char) (ls : Matrix (Fin L) (Fin S) ℝ) (h : Hull L) (hr : HRIRs) (hc : hr.Consistent)
    (hne : hr.azi ≠ []) (hT : 1 ≤ hr.numSamples) (hS : 1 ≤ S) :
    ∃ (ears : ℕ → List ℝ × List ℝ) (w : Saved), (∀ a : ℕ, binauralize h ls hr.fs (a * (π / 180), 0) hr = .ok (ears a)) ∧
      SsrFile hr.fs ears w.file ∧ w.file.frames = S + hr.numSamples - 1 ∧
      ∀ (jobs : Option ℤ), 1 ≤ jobs.getD cpus → ∀ out, WriteSsrLoudspeaker cpus name ls h hr.fs hr jobs out ↔ out = .ok (wavName name, w) := by
  have hb := fun a : ℕ => C46_binauralize h ls (npDeg2rad a, 0) hr hc hne hT hS
  choose idx l r h1 h2 h3 _ _ using hb
  set ears : ℕ → List ℝ × List ℝ := fun a => (l a, r a)
  have hcols : hr.left.cols = hr.numSamples := by obtain ⟨_, _, _, _, _, _, c7, _⟩ := hc; exact c7
  obtain ⟨w, hw1, hw2, hw3⟩ := finish_spec hr.fs ears (S + hr.numSamples - 1) (by omega) fun a _ => ⟨h2 a, h3 a⟩
  refine ⟨ears, w, fun a => h1 a, hw2, hw3, fun jobs hj out => ?_⟩
  have hrows : ∀ rows, SsrRows (S + hr.left.cols - 1) (fun a => binauralize h ls hr.fs (npDeg2rad a, 0) hr) (jobs.getD cpus) rows →
      rows = .ok (pairRows ears 360) := fun rows hrw =>
    rows_ok _ _ ears (fun a _ => h1 a) (fun a _ => by rw [hcols]; exact ⟨h2 a, h3 a⟩) _ hj rows hrw
  constructor
  · intro ho
    cases ho with
    | rate hf => exact absurd rfl hf
    | size _ hn => omega
    | run _ _ rows hrw =>
      rw [hrows rows hrw]
      show (finishSsr (pairRows ears 360) hr.fs).map _ = _
      rw [hw1]; rfl
  · rintro rfl
    have hex : ∃ rows, SsrRows (S + hr.left.cols - 1) (fun a => binauralize h ls hr.fs (npDeg2rad a, 0) hr) (jobs.getD cpus) rows := by
      rcases hj.lt_or_eq with hj1 | hj1
      · exact ⟨_, .pool hj1 (.ok ((List.range 360).map ears)) (.ok _ (mapM_eq_map _ ears _ fun a _ => h1 a))⟩
      · exact ⟨_, .serial hj1.symm⟩
    obtain ⟨rows, hrw⟩ := hex
    have := WriteSsrLoudspeaker.run (cpus := cpus) (name := name) (ls := ls) (h := h) (jobs := jobs) (hr := hr) rfl (by omega) rows hrw
    rw [hrows rows hrw] at this
    have e : ((Except.ok (pairRows ears 360) : Py (List (List ℝ))).bind fun rows => (finishSsr rows hr.fs).map fun w => (wavName name, w)) = .ok (wavName name, w) := by
      show (finishSsr (pairRows ears 360) hr.fs).map _ = _
      rw [hw1]; rfl
    rwa [e] at this

example : ∃ w, (∀ out, WriteSsrLoudspeaker 4 ['b'] !![1, 0, 2; 0, 3, 0] pairHull 48000 twoHrirs (some 3) out ↔ out = .ok (['b', '.', 'w', 'a', 'v'], w)) ∧
    w.file.frames = 4 := by
  obtain ⟨ears, w, -, -, h2, h3⟩ := C77_loudspeaker 4 ['b'] !![1, 0, 2; 0, 3, 0] pairHull twoHrirs twoHrirs_consistent twoHrirs_grid.2.1
    (by simp [twoHrirs]) (by norm_num)
  have h4 := h3 (some 3) (by simp)
  rw [(C77_name ['b']).2.2 (by decide)] at h4
  exact ⟨w, h4, by rw [h2]; simp [twoHrirs]⟩

/-- C77: HRIRs at another rate are rejected. -/
theorem C77_rate {L R S : ℕ} (cpus : ℕ) (name : List Char) (ls : Matrix (Fin R) (Fin S) ℝ) (h : Hull L) (fs : ℝ) (hr : HRIRs) (jobs : Option ℤ)
    (hf : hr.fs ≠ fs) (out : Py (List Char × Saved)) (p phi theta : List ℝ) :
    (WriteSsrLoudspeaker cpus name ls h fs hr jobs out ↔ out = .error .assertionError) ∧ writeSsrSdm name p phi theta fs hr = .error .assertionError := by
  refine ⟨⟨fun ho => ?_, ?_⟩, ?_⟩
  · cases ho with
    | rate => rfl
    | size hf' => exact absurd hf' hf
    | run hf' => exact absurd hf' hf
  · rintro rfl; exact .rate hf
  · unfold writeSsrSdm; rw [if_pos hf]

example : WriteSsrLoudspeaker 4 ['b'] !![1, 0, 2; 0, 3, 0] pairHull 44100 twoHrirs (some 3) (.error .assertionError) :=
  (C77_rate _ _ _ _ _ _ _ (by norm_num [twoHrirs]) _ [] [] []).1.2 rfl

/-- With `jobs_count` below one no rendering takes place, and a file of 720 silent channels is written. -/
theorem C77_no_jobs_fails {L R S : ℕ} (cpus : ℕ) (name : List Char) (ls : Matrix (Fin R) (Fin S) ℝ) (h : Hull L) (hr : HRIRs) (jobs : Option ℤ)
    (hj : jobs.getD cpus < 1) (hn : 2 ≤ S + hr.left.cols) (out : Py (List Char × Saved)) (ho : WriteSsrLoudspeaker cpus name ls h hr.fs hr jobs out) :
    ∃ w, out = .ok (wavName name, w) ∧ w.file.channels.length = 720 ∧ ∀ ch ∈ w.file.channels, ∀ v ∈ ch, v = 0 := by
  cases ho with
  | rate hf => exact absurd rfl hf
  | size _ hn' => omega
  | run _ _ rows hrw =>
    cases hrw with
    | serial hj' => omega
    | pool hj' => omega
    | untouched _ =>
      set n := S + hr.left.cols - 1
      have hrows : List.replicate 720 (List.replicate n (0 : ℝ)) = pairRows (fun _ => (List.replicate n 0, List.replicate n 0)) 360 := by
        symm
        apply List.eq_replicate_iff.2
        refine ⟨pairRows_length _ _, fun r hr => ?_⟩
        obtain ⟨a, _, h | h⟩ := (pairRows_mem _ _ r).1 hr <;> exact h
      obtain ⟨w, h1, h2, _⟩ := finish_spec hr.fs (fun _ => (List.replicate n 0, List.replicate n 0)) n (by omega) (by simp)
      refine ⟨w, ?_, h2.count, ?_⟩
      · show (finishSsr (List.replicate 720 (List.replicate n 0)) hr.fs).map _ = _
        rw [hrows, h1]; rfl
      · obtain ⟨c, _, _, hch, _⟩ := h2.scaled
        intro ch hm v hv
        obtain ⟨k, hk, rfl⟩ := List.getElem_of_mem hm
        have hk' : k < 720 := by rw [← h2.count]; exact hk
        have hk2 : k / 2 < 360 := by omega
        have hz : w.file.channels.getD k [] = (List.replicate n (0 : ℝ)).map (c * ·) := by
          rcases Nat.even_or_odd' k with ⟨a, rfl | rfl⟩
          · exact (hch a (by omega)).1
          · exact (hch a (by omega)).2
        rw [List.getD_eq_getElem _ _ hk] at hz
        rw [hz] at hv
        obtain ⟨x, hx, rfl⟩ := List.mem_map.1 hv
        rw [List.eq_of_mem_replicate hx, mul_zero]

example : (some 0 : Option ℤ).getD (4 : ℕ) < 1 ∧ 2 ≤ 3 + twoHrirs.left.cols ∧
    WriteSsrLoudspeaker 4 ['b'] !![1, 0, 2; 0, 3, 0] pairHull twoHrirs.fs twoHrirs (some 0)
      ((Except.ok (List.replicate 720 (List.replicate (3 + twoHrirs.left.cols - 1) 0)) : Py (List (List ℝ))).bind fun rows =>
        (finishSsr rows twoHrirs.fs).map fun w => (wavName ['b'], w)) :=
  ⟨by decide, by simp [twoHrirs], .run rfl (by simp [twoHrirs]) _ (.untouched (by decide))⟩

/-! ### C77 for the spatial decomposition method -/

theorem renderBsdm1_iff (cpus : ℕ) (p phi theta : List ℝ) (h : HRIRs) (lockOf : (W : ℕ) → Fin W → ℕ) (out : Py (List ℝ × List ℝ)) :
    RenderBsdm lockOf cpus p phi theta h (some 1) out ↔ out = renderBsdm1 p phi theta h := by
  unfold renderBsdm1
  constructor
  · intro ho
    cases ho with
    | raises e hj ht => rw [ht]; rfl
    | noJobs hj => simp at hj
    | serial tasks hj ht => rw [ht]; rfl
    | parallel tasks W s hj hW ht hrun hfin => simp at hj; omega
  · rintro rfl
    rcases ht : (bsdmSamples p phi theta).mapM (bsdmTask h (p.length + h.numSamples - 1)) with e | tasks
    · exact .raises e (by simp) ht
    · exact .serial tasks (by simp) ht

theorem bsdmSerial_length (n : ℕ) (tasks : List BsdmTask) : (bsdmSerial n tasks).1.length = n ∧ (bsdmSerial n tasks).2.length = n := by
  unfold bsdmSerial
  have key : ∀ (tasks : List BsdmTask) (acc : List ℝ × List ℝ), acc.1.length = n → acc.2.length = n →
      (tasks.foldl (fun lr t => (addAt lr.1 t.i t.p t.l, addAt lr.2 t.i t.p t.r)) acc).1.length = n ∧
      (tasks.foldl (fun lr t => (addAt lr.1 t.i t.p t.l, addAt lr.2 t.i t.p t.r)) acc).2.length = n := by
    intro tasks
    induction tasks with
    | nil => intro acc h1 h2; exact ⟨h1, h2⟩
    | cons t ts ih => intro acc h1 h2; exact ih _ (by rw [addAt_length]; exact h1) (by rw [addAt_length]; exact h2)
  exact key tasks _ (by simp) (by simp)

/-- With a consistent non-empty set of HRIRs `render_bsdm` succeeds. -/
theorem renderBsdm1_ok (p phi theta : List ℝ) (hr : HRIRs) (hc : hr.Consistent) (hne : hr.azi ≠ []) (hT : 1 ≤ hr.numSamples) :
    ∃ lr, renderBsdm1 p phi theta hr = .ok lr := by
  obtain ⟨c1, c2, c3, c4, c5, c6, c7, c8⟩ := hc
  have hg : hr.Grid := ⟨by rw [c1, c2], hne, by rw [c1, c3], by rw [c1, c4]⟩
  have hn := fun a z : ℝ => C51_rows hr hg a z
  choose idx rl rr e1 _ e3 e4 using hn
  unfold renderBsdm1
  rw [mapM_eq_map _ (fun x => { i := x.2, p := x.1.1, l := rl x.1.2.1 x.1.2.2, r := rr x.1.2.1 x.1.2.2 }) _ fun x hx => by
    have hx2 : x.2 < p.length := by
      have := List.snd_lt_of_mem_zipIdx hx
      simp at this; omega
    have h1 : (rl x.1.2.1 x.1.2.2).length = hr.numSamples := by rw [c5 _ (List.mem_of_getElem? (e3 _ _)), c7]
    have h2 : (rr x.1.2.1 x.1.2.2).length = hr.numSamples := by rw [c6 _ (List.mem_of_getElem? (e4 _ _)), c8]
    unfold bsdmTask
    rw [e1]
    show (if x.2 + (rl x.1.2.1 x.1.2.2).length ≤ _ ∧ x.2 + (rr x.1.2.1 x.1.2.2).length ≤ _ then (Except.ok _ : Py BsdmTask) else _) = _
    rw [if_pos (by omega)]]
  exact ⟨_, rfl⟩

/-- C77: `write_ssr_brirs_sdm` writes the file whose channels `2a` and `2a + 1` are what `render_bsdm` gives for all directions turned
back by `a` degrees (whatever the number of jobs and the schedule used there). -/
theorem C77_sdm (lock cpus : ℕ) (name : List Char) (p phi theta : List ℝ) (hr : HRIRs) (hc : hr.Consistent) (hne : hr.azi ≠ [])
    (hT : 1 ≤ hr.numSamples) (hp : p ≠ []) :
    ∃ (ears : ℕ → List ℝ × List ℝ) (w : Saved), (∀ (a : ℕ) (jobs : Option ℤ) (out : Py (List ℝ × List ℝ)), 1 ≤ jobs.getD cpus →
        RenderBsdm (fun _ _ => lock) cpus p (phi.map fun x => x - a * (π / 180)) theta hr jobs out → out = .ok (ears a)) ∧
      writeSsrSdm name p phi theta hr.fs hr = .ok (wavName name, w) ∧ SsrFile hr.fs ears w.file ∧ w.file.frames = p.length + hr.numSamples - 1 := by
  have hlp : 1 ≤ p.length := List.length_pos_iff.2 hp
  have hcols : hr.left.cols = hr.numSamples := by obtain ⟨_, _, _, _, _, _, c7, _⟩ := hc; exact c7
  choose ears hrend using fun a : ℕ => renderBsdm1_ok p (phi.map fun x => x - npDeg2rad a) theta hr hc hne hT
  have hlen : ∀ a, (ears a).1.length = p.length + hr.numSamples - 1 ∧ (ears a).2.length = p.length + hr.numSamples - 1 := by
    intro a
    have h := hrend a
    unfold renderBsdm1 at h
    rcases ht : (bsdmSamples p (phi.map fun x => x - npDeg2rad a) theta).mapM (bsdmTask hr (p.length + hr.numSamples - 1)) with e | tasks
    · rw [ht] at h; cases h
    · rw [ht] at h
      have : bsdmSerial (p.length + hr.numSamples - 1) tasks = ears a := by
        change Except.ok _ = Except.ok _ at h
        exact Except.ok.inj h
      rw [← this]; exact bsdmSerial_length _ _
  obtain ⟨w, hw1, hw2, hw3⟩ := finish_spec hr.fs ears (p.length + hr.numSamples - 1) (by omega) fun a _ => hlen a
  refine ⟨ears, w, ?_, ?_, hw2, hw3⟩
  · intro a jobs out hj ho
    have h1 := (renderBsdm1_iff cpus _ _ _ _ (fun _ _ => lock) _).2 (hrend a).symm
    exact C62_schedule lock cpus cpus _ _ _ hr jobs (some 1) hj (by simp) out _ ho h1
  unfold writeSsrSdm
  rw [if_neg (by simp), if_neg (by omega), hcols, ssrLoop_ok _ _ ears (fun a _ => hrend a) (fun a _ => hlen a)]
  show (finishSsr (pairRows ears 360) hr.fs).map _ = _
  rw [hw1]; rfl

example : ∃ w, writeSsrSdm ['b'] [1, 2, 3] [0, 1, 2] [1, 1, 1] 48000 twoHrirs = .ok (['b', '.', 'w', 'a', 'v'], w) ∧ w.file.frames = 4 ∧
    w.file.channels.length = 720 := by
  obtain ⟨ears, w, -, h1, h2, h3⟩ := C77_sdm 0 4 ['b'] [1, 2, 3] [0, 1, 2] [1, 1, 1] twoHrirs twoHrirs_consistent twoHrirs_grid.2.1 (by simp [twoHrirs]) (by simp)
  rw [(C77_name ['b']).2.2 (by decide)] at h1
  exact ⟨w, h1, by rw [h3]; simp [twoHrirs], h2.count⟩

end Verif.Props
