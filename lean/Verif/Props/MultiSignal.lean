import Mathlib.Tactic
import Verif.Props.Signals

/-! C48, C49: multichannel and B-format signals under every history of calls. -/

namespace Verif.Sig

open Verif.Utils

/-! ### C48 -/

/-- A call on a `MultiSignal`. -/
inductive MOp
  | trim (start : ℝ) (stop dur : Option ℝ)
  | apply (r : ℕ → NDArray ℝ)
  | conv (mode : ConvMode) (irs : List (NDArray ℝ))
  | resample (fsNew : ℝ)

/-- The object after one call (exceptions are caught by the caller, the object lives on). -/
noncomputable def Multi.call (rs : Resampler) (m : Multi) : MOp → Multi
  | .trim a b d => (m.trim a b d).1
  | .apply r => (m.apply r).1
  | .conv mode irs => (m.conv mode irs).1
  | .resample f => (m.resample rs f).1

/-- The object after a history of calls. -/
noncomputable def Multi.run (rs : Resampler) (m : Multi) (ops : List MOp) : Multi := ops.foldl (Multi.call rs) m

/-- A consistent multichannel signal: `C` channels of equal length and rate. -/
def Multi.Consistent (m : Multi) (C : ℕ) : Prop :=
  m.channels.length = C ∧ m.channelCount = C ∧ (∀ c ∈ m.channels, c.fs = m.fs) ∧
    ∃ n, ∀ c ∈ m.channels, c.signal.length = n

/-- Arguments that fit the object: one one-dimensional impulse response per channel, all of one length; a function that returns one-dimensional arrays of
one length. -/
def MOp.Fits (C : ℕ) : MOp → Prop
  | .trim _ _ _ => True
  | .apply r => ∃ n, ∀ i, ∃ a, asarray1d (r i) = .ok a ∧ a.data.length = n
  | .conv _ irs => C ≤ irs.length ∧ ∃ n, ∀ h ∈ irs, ∃ a, asarray1d h = .ok a ∧ a.data.length = n
  | .resample _ => True

theorem loop_all (f : ℕ → Mono → Py Mono) (cs : List Mono) (i : ℕ)
    (h : ∀ j c, j < i + cs.length → c ∈ cs → ∃ c', f j c = .ok c') :
    (loopChannels f i cs).2 = none ∧ (loopChannels f i cs).1.length = cs.length ∧
      ∀ c' ∈ (loopChannels f i cs).1, ∃ j c, j < i + cs.length ∧ c ∈ cs ∧ f j c = .ok c' := by
  induction cs generalizing i with
  | nil => simp [loopChannels]
  | cons c cs ih =>
    obtain ⟨c', hc'⟩ := h i c (by simp) (by simp)
    obtain ⟨h1, h2, h3⟩ := ih (i + 1) fun j d hj hd => h j d (by simp at hj ⊢; omega) (List.mem_cons_of_mem _ hd)
    simp only [loopChannels, hc']
    refine ⟨h1, by simp [h2], ?_⟩
    intro d hd
    rcases List.mem_cons.1 hd with rfl | hd
    · exact ⟨i, c, by simp, by simp, hc'⟩
    · obtain ⟨j, e, hj, he, hf⟩ := h3 d hd
      exact ⟨j, e, by simp; omega, List.mem_cons_of_mem _ he, hf⟩

theorem loop_fail (f : ℕ → Mono → Py Mono) (cs : List Mono) (i : ℕ) (h : ∀ c ∈ cs, ∃ e, f i c = .error e) :
    (loopChannels f i cs).1 = cs := by
  cases cs with
  | nil => rfl
  | cons c cs =>
    obtain ⟨e, he⟩ := h c (by simp)
    simp [loopChannels, he]

theorem convKeep_length (mode : ConvMode) (x h : List ℝ) (hx : x ≠ []) (hh : h ≠ []) :
    (convKeep mode x h).length = convLen mode x.length h.length := by
  have h1 := List.length_pos_iff.2 hx
  have h2 := List.length_pos_iff.2 hh
  cases mode
  · simp [convKeep, convLen, convFull_length]
  · simp only [convKeep, convLen, List.length_take, List.length_drop, convFull_length]; omega
  · simp only [convKeep, convLen, List.length_take, List.length_drop, convFull_length]; omega

theorem Multi.loop_consistent {m : Multi} {C : ℕ} (hm : m.Consistent C) (f : ℕ → Mono → Py Mono)
    (hf : (∀ i c, i < C → c ∈ m.channels → ∃ e, f i c = .error e) ∨
      (∃ n, ∀ i c, i < C → c ∈ m.channels → ∃ c', f i c = .ok c' ∧ c'.fs = c.fs ∧ c'.signal.length = n)) :
    (m.loop f).1.Consistent C := by
  obtain ⟨h1, h2, h3, h4⟩ := hm
  rcases hf with hf | ⟨n, hf⟩
  · have : (m.loop f).1 = m := by
      have hl : (loopChannels f 0 m.channels).1 = m.channels := by
        apply loop_fail
        intro c hc
        exact hf 0 c (by rw [← h1]; exact List.length_pos_of_mem hc) hc
      simp [Multi.loop, hl]
    rw [this]
    exact ⟨h1, h2, h3, h4⟩
  · obtain ⟨-, l2, l3⟩ := loop_all f m.channels 0 fun j c hj hc => by
      obtain ⟨c', hc', -⟩ := hf j c (by omega) hc
      exact ⟨c', hc'⟩
    refine ⟨by simp [Multi.loop, l2, h1], h2, ?_, n, ?_⟩
    · intro c' hc'
      obtain ⟨j, c, hj, hc, hfc⟩ := l3 c' hc'
      obtain ⟨d, hd, hfs, -⟩ := hf j c (by omega) hc
      rw [hfc] at hd
      cases hd
      exact hfs.trans (h3 c hc)
    · intro c' hc'
      obtain ⟨j, c, hj, hc, hfc⟩ := l3 c' hc'
      obtain ⟨d, hd, -, hl⟩ := hf j c (by omega) hc
      rw [hfc] at hd
      cases hd
      exact hl

theorem trim_consistent {m : Multi} {C : ℕ} (hm : m.Consistent C) (a : ℝ) (b d : Option ℝ) : (m.trim a b d).1.Consistent C := by
  unfold Multi.trim
  split
  · exact hm
  · split
    · split
      · rename_i s hs
        apply Multi.loop_consistent hm
        right
        obtain ⟨h1, h2, h3, n, h4⟩ := hm
        refine ⟨(cut a s m.fs (List.replicate n 0)).length, fun i c _ hc => ⟨_, rfl, rfl, ?_⟩⟩
        simp only [h3 c hc, cut, pySlice, List.length_drop, List.length_take, h4 c hc, List.length_replicate]
      · exact hm
    · exact hm

theorem apply_consistent {m : Multi} {C : ℕ} (hm : m.Consistent C) (r : ℕ → NDArray ℝ) (hr : (MOp.apply r).Fits C) : (m.apply r).1.Consistent C := by
  obtain ⟨n, hr⟩ := hr
  apply Multi.loop_consistent hm
  right
  refine ⟨n, fun i c _ _ => ?_⟩
  obtain ⟨a, ha, hl⟩ := hr i
  exact ⟨{ c with signal := a.data }, by rw [Mono.apply, ha]; rfl, rfl, hl⟩

theorem conv_consistent {m : Multi} {C : ℕ} (hm : m.Consistent C) (mode : ConvMode) (irs : List (NDArray ℝ)) (hr : (MOp.conv mode irs).Fits C) :
    (m.conv mode irs).1.Consistent C := by
  obtain ⟨hC, k, hr⟩ := hr
  apply Multi.loop_consistent hm
  obtain ⟨h1, h2, h3, n, h4⟩ := hm
  have get : ∀ i, i < C → ∃ h a, irs[i]? = some h ∧ asarray1d h = .ok a ∧ a.data.length = k := by
    intro i hi
    obtain ⟨a, ha, hl⟩ := hr (irs[i]'(by omega)) (List.getElem_mem _)
    exact ⟨_, a, List.getElem?_eq_getElem (by omega), ha, hl⟩
  by_cases hz : n = 0 ∨ k = 0
  · left
    intro i c hi hc
    obtain ⟨h, a, e1, e2, e3⟩ := get i hi
    refine ⟨.valueError, ?_⟩
    have e4 := h4 c hc
    simp only [e1, Mono.conv, e2, Except.bind, convolve]
    rw [if_pos (by
      rcases hz with hz | hz
      · left; exact List.length_eq_zero_iff.1 (by omega)
      · right; exact List.length_eq_zero_iff.1 (by omega))]
    rfl
  · right
    refine ⟨convLen mode n k, fun i c hi hc => ?_⟩
    obtain ⟨h, a, e1, e2, e3⟩ := get i hi
    have e4 := h4 c hc
    have n1 : c.signal ≠ [] := fun h0 => by rw [h0] at e4; simp at e4; omega
    have n2 : a.data ≠ [] := fun h0 => by rw [h0] at e3; simp at e3; omega
    refine ⟨{ c with signal := convKeep mode c.signal a.data }, ?_, rfl, ?_⟩
    · simp only [e1, Mono.conv, e2, Except.bind, convolve]
      rw [if_neg (by tauto)]
      rfl
    · rw [convKeep_length mode _ _ n1 n2, e4, e3]

theorem getSignals_ok {m : Multi} {C : ℕ} (hm : m.Consistent C) : m.getSignals = .ok (m.channels.map Mono.signal) := by
  obtain ⟨-, -, -, n, h4⟩ := hm
  rw [Multi.getSignals, if_pos fun c hc c' hc' => (h4 c hc).trans (h4 c' hc').symm]

theorem unstack_two {rows : List (List ℝ)} (h : 2 ≤ rows.length) : unstackSqueezed rows = .ok rows := by
  match rows, h with
  | a :: b :: l, _ => rfl

theorem resampled_two {rs : Resampler} {m : Multi} {C : ℕ} (hm : m.Consistent C) (hC : 2 ≤ C) (fsNew : ℝ) {rows : List (List ℝ)}
    (h : m.resampled rs fsNew = .ok rows) : rows = m.channels.map fun c => rs.run m.fs fsNew c.signal := by
  rw [Multi.resampled, getSignals_ok hm] at h
  change (resampleRows rs (m.channels.map Mono.signal) m.fs fsNew).bind _ = _ at h
  obtain ⟨h1, -⟩ := hm
  match hch : m.channels with
  | [] => rw [hch] at h1; simp at h1; omega
  | c :: cs =>
    rw [hch] at h h1
    simp only [List.map_cons, resampleRows] at h
    split at h
    · cases h
    · change unstackSqueezed _ = _ at h
      rw [unstack_two (by simp at h1 ⊢; omega)] at h
      cases h
      simp

theorem resample_consistent {rs : Resampler} {m : Multi} {C : ℕ} (hm : m.Consistent C) (hC : 2 ≤ C) (fsNew : ℝ) :
    (m.resample rs fsNew).1.Consistent C := by
  unfold Multi.resample
  split
  · exact hm
  · split
    · exact hm
    · rename_i rows hr
      rw [resampled_two hm hC fsNew hr]
      obtain ⟨h1, h2, h3, n, h4⟩ := hm
      refine ⟨by simp [h1], by simp [h1], by simp, rs.len m.fs fsNew n, ?_⟩
      intro c hc
      simp only [List.mem_map] at hc
      obtain ⟨r, ⟨d, hd, rfl⟩, rfl⟩ := hc
      simp [rs.run_length, h4 d hd]

/-- **C48** (partial) A signal of two or more channels stays consistent under every history of `trim`, `conv`, `apply` and `resample` calls with any resampler,
provided each `conv` gets one impulse response per channel, all of one length, and each applied function returns arrays of one length.
Missing: the general statement is false, see `C48_conv_fails` and `C48_resample_mono_fails`. -/
theorem C48_history_partial (rs : Resampler) (m : Multi) (C : ℕ) (hC : 2 ≤ C) (hm : m.Consistent C) (ops : List MOp) (hops : ∀ o ∈ ops, o.Fits C) :
    (m.run rs ops).Consistent C := by
  induction ops generalizing m with
  | nil => exact hm
  | cons o ops ih =>
    refine ih (m.call rs o) ?_ (fun q hq => hops q (List.mem_cons_of_mem _ hq))
    have ho := hops o (by simp)
    cases o with
    | trim a b d => exact trim_consistent hm a b d
    | apply r => exact apply_consistent hm r ho
    | conv mode irs => exact conv_consistent hm mode irs ho
    | resample f => exact resample_consistent hm hC f

theorem stereo_consistent : stereo.Consistent 2 := ⟨rfl, rfl, by simp [stereo], 3, by simp [stereo]⟩

/-- A resampler that keeps every second sample of what it is given, repeated to the new rate. -/
example (rs : Resampler) : (stereo.run rs [.conv .full [⟨[2], [1, 2]⟩, ⟨[2], [3, 4]⟩], .trim 1 (some 2) none, .resample 2]).Consistent 2 := by
  refine C48_history_partial rs stereo 2 le_rfl stereo_consistent _ ?_
  intro o ho
  simp only [List.mem_cons, List.not_mem_nil, or_false] at ho
  rcases ho with rfl | rfl | rfl
  · exact ⟨by simp, 2, by simp [asarray1d, NDArray.squeeze]⟩
  · trivial
  · trivial

/-- **C48** (negative part) `conv` with fewer impulse responses than channels silently leaves the rest of the channels unconvolved, so that every two-channel
signal ends up with channels of different length. -/
theorem C48_conv_fails (x y h : List ℝ) (fs : ℝ) (hx : x ≠ []) (hl : x.length = y.length) (hh : 2 ≤ h.length) :
    let m : Multi := { channels := [⟨x, fs⟩, ⟨y, fs⟩], fs := fs, channelCount := 2 }
    m.Consistent 2 ∧ (m.conv .full [⟨[h.length], h⟩]).2 = none ∧ ¬ (m.conv .full [⟨[h.length], h⟩]).1.Consistent 2 := by
  intro m
  have ha : asarray1d ⟨[h.length], h⟩ = .ok ⟨[h.length], h⟩ := by
    have : h.length ≠ 1 := by omega
    simp [asarray1d, NDArray.squeeze, this]
  have hne : h ≠ [] := fun h0 => by simp [h0] at hh
  have hr : m.conv .full [⟨[h.length], h⟩] = ({ m with channels := [⟨convFull x h, fs⟩, ⟨y, fs⟩] }, none) := by
    simp [Multi.conv, Multi.loop, loopChannels, m, Mono.conv, ha, Except.bind, convolve, hx, hne, Except.map, convKeep]
  refine ⟨⟨rfl, rfl, by simp [m], x.length, by simp [m, hl]⟩, by rw [hr], ?_⟩
  rw [hr]
  rintro ⟨-, -, -, n, h4⟩
  have h1 := h4 ⟨convFull x h, fs⟩ (by simp)
  have h2 := h4 ⟨y, fs⟩ (by simp)
  simp only [convFull_length] at h1 h2
  have := List.length_pos_iff.2 hx
  omega

example : ¬ (stereo.conv .full [⟨[2], [1, 2]⟩]).1.Consistent 2 :=
  (C48_conv_fails [1, 2, 3] [4, 5, 6] [1, 2] 1 (by simp) rfl (by simp)).2.2

/-- **C48** (negative part) `resample` turns a single-channel `MultiSignal` into one channel per sample. -/
theorem C48_resample_mono_fails (rs : Resampler) (x : List ℝ) (fs fsNew : ℝ) (hfs : fsNew ≠ fs) (hl : 2 ≤ rs.len fs fsNew x.length) :
    let m : Multi := { channels := [⟨x, fs⟩], fs := fs, channelCount := 1 }
    (m.resample rs fsNew).2 = none ∧ (m.resample rs fsNew).1.channels = (rs.run fs fsNew x).map (fun v => ⟨[v], fsNew⟩) ∧
      (m.resample rs fsNew).1.channelCount = rs.len fs fsNew x.length := by
  intro m
  have hlen := rs.run_length fs fsNew x
  have hr : m.resampled rs fsNew = .ok ((rs.run fs fsNew x).map fun v => [v]) := by
    have hg : m.getSignals = .ok [x] := by simp [Multi.getSignals, m]
    rw [Multi.resampled, hg]
    change (resampleRows rs [x] fs fsNew).bind _ = _
    rw [resampleRows, if_neg (by omega)]
    change unstackSqueezed [rs.run fs fsNew x] = _
    change unstackRow (rs.run fs fsNew x) = _
    match hq : rs.run fs fsNew x with
    | [] => rfl
    | [a] => rw [hq] at hlen; simp at hlen; omega
    | a :: b :: l => rfl
  have hr' : m.resample rs fsNew = (Multi.mk (((rs.run fs fsNew x).map fun v => [v]).map fun r => ⟨r, fsNew⟩) fsNew
      ((rs.run fs fsNew x).map fun v => [v]).length, none) := by
    rw [Multi.resample, if_neg hfs, hr]
  rw [hr']
  refine ⟨rfl, ?_, ?_⟩
  · simp [Function.comp_def]
  · simp [hlen]

/-- **C48** When `resample` raises, and that the object is then unchanged: no channels, channels of different lengths or no sample left are a `ValueError`, a single
channel with one sample left is a `TypeError`. -/
theorem C48_resample_errors (rs : Resampler) (m : Multi) (fsNew : ℝ) (hfs : fsNew ≠ m.fs) :
    (∀ e, (m.resample rs fsNew).2 = some e → (m.resample rs fsNew).1 = m) ∧
    (m.channels = [] → (m.resample rs fsNew).2 = some .valueError) ∧
    (∀ c ∈ m.channels, ∀ c' ∈ m.channels, c.signal.length ≠ c'.signal.length → (m.resample rs fsNew).2 = some .valueError) ∧
    (∀ c ∈ m.channels, rs.len m.fs fsNew c.signal.length = 0 → (m.resample rs fsNew).2 = some .valueError) ∧
    ∀ c, m.channels = [c] → rs.len m.fs fsNew c.signal.length = 1 → (m.resample rs fsNew).2 = some .typeError := by
  have hun : ∀ c ∈ m.channels, ∀ c' ∈ m.channels, c.signal.length ≠ c'.signal.length → (m.resample rs fsNew).2 = some .valueError := by
    intro c hc c' hc' hne
    unfold Multi.resample Multi.resampled Multi.getSignals
    rw [if_neg hfs, if_neg fun h => hne (h c hc c' hc')]
    rfl
  refine ⟨fun e he => ?_, fun h0 => ?_, hun, fun c hc hl => ?_, fun c hc hl => ?_⟩
  · unfold Multi.resample at he ⊢
    rw [if_neg hfs] at he ⊢
    cases hr : m.resampled rs fsNew with
    | error e' => rfl
    | ok rows => rw [hr] at he; cases he
  · unfold Multi.resample Multi.resampled Multi.getSignals
    rw [if_neg hfs, h0]
    rfl
  · by_cases heq : ∀ c ∈ m.channels, ∀ c' ∈ m.channels, c.signal.length = c'.signal.length
    · have h : m.resampled rs fsNew = .error .valueError := by
        unfold Multi.resampled Multi.getSignals
        rw [if_pos heq]
        match hm : m.channels with
        | [] => rw [hm] at hc; cases hc
        | d :: ds =>
          have : d.signal.length = c.signal.length := heq d (by rw [hm]; simp) c hc
          change (resampleRows rs (d.signal :: ds.map Mono.signal) m.fs fsNew).bind _ = _
          unfold resampleRows
          simp only
          rw [this, hl, if_pos (by norm_num)]
          rfl
      unfold Multi.resample
      rw [if_neg hfs, h]
    · push Not at heq
      obtain ⟨d, hd, d', hd', hne⟩ := heq
      exact hun d hd d' hd' hne
  · have h : m.resampled rs fsNew = .error .typeError := by
      unfold Multi.resampled Multi.getSignals
      rw [hc, if_pos (by simp)]
      change (resampleRows rs [c.signal] m.fs fsNew).bind _ = _
      unfold resampleRows
      simp only
      rw [hl, if_neg (by norm_num)]
      change unstackRow (rs.run m.fs fsNew c.signal) = _
      have hlen := rs.run_length m.fs fsNew c.signal
      rw [hl] at hlen
      obtain ⟨v, hv⟩ := List.length_eq_one_iff.1 hlen
      rw [hv]; rfl
    unfold Multi.resample
    rw [if_neg hfs, h]

/-- `C48_resample_errors`: two channels of different lengths. -/
example (rs : Resampler) : ((Multi.mk [⟨[1, 2], 1⟩, ⟨[1], 1⟩] 1 2).resample rs 2).2 = some .valueError :=
  (C48_resample_errors rs ⟨[⟨[1, 2], 1⟩, ⟨[1], 1⟩], 1, 2⟩ 2 (by norm_num)).2.2.1 ⟨[1, 2], 1⟩ (by simp) ⟨[1], 1⟩ (by simp) (by simp)

/-- A resampler that doubles the number of samples. -/
def doubler : Resampler where
  len _ _ n := n * 2
  run _ _ x := x.flatMap fun v => [v, v]
  run_length _ _ x := by simp [List.length_flatMap]

example : (Multi.resample doubler ⟨[⟨[1, 2], 1⟩], 1, 1⟩ 2).1.channelCount = 4 :=
  (C48_resample_mono_fails doubler [1, 2] 1 2 (by norm_num) (by simp [doubler])).2.2

/-! ### C49 -/

/-- The attributes are the channels. -/
def AmbiB.InSync (b : AmbiB) : Prop := b.channels.map Mono.signal = [b.W, b.X, b.Y, b.Z]

/-- A call on an `AmbiBSignal`. -/
noncomputable def AmbiB.call (rs : Resampler) (b : AmbiB) : MOp → AmbiB × Option PyErr
  | .trim s t d => b.lift (b.toMulti.trim s t d)
  | .apply r => b.lift (b.toMulti.apply r)
  | .conv mode irs => b.lift (b.toMulti.conv mode irs)
  | .resample f => b.resample rs f

/-- The object after a history of calls. -/
noncomputable def AmbiB.run (rs : Resampler) (b : AmbiB) (ops : List MOp) : AmbiB := ops.foldl (fun b o => (b.call rs o).1) b

theorem ofMulti_sync {m : Multi} {b : AmbiB} (hm : m.channelCount = m.channels.length) (h : AmbiB.ofMulti m = .ok b) :
    b.InSync ∧ b.toMulti = m := by
  rw [AmbiB.ofMulti] at h
  split at h
  · rename_i hc
    cases h
    refine ⟨?_, rfl⟩
    rw [hm] at hc
    match hch : m.channels, hc with
    | [a, b, c, d], _ => simp [AmbiB.InSync, hch]
  · cases h

theorem mapM_length {α β : Type} (F : α → Py β) (l : List α) (ys : List β) (h : l.mapM F = .ok ys) : ys.length = l.length := by
  induction l generalizing ys with
  | nil => cases h; rfl
  | cons x l ih =>
    rw [List.mapM_cons] at h
    rcases hx : F x with e | y
    · rw [hx] at h; cases h
    · rw [hx] at h
      rcases hl : l.mapM F with e | zs
      · rw [hl] at h; cases h
      · rw [hl] at h
        cases h
        simp [ih zs hl]

/-- **C49** (partial) Directly after construction the attributes `W, X, Y, Z` are the four channels. -/
theorem C49_init_partial (signals : List (NDArray ℝ)) (fs : Option ℝ) (b : AmbiB) (h : AmbiB.init signals fs = .ok b) :
    b.InSync ∧ signals.length = 4 ∧ b.channelCount = 4 := by
  rw [AmbiB.init] at h
  rcases fs with _ | fs
  · cases h
  · rcases hm : signals.mapM (fun s => Mono.init s fs) with e | cs
    · rw [Multi.init] at h; simp only [hm] at h; cases h
    · rw [Multi.init] at h; simp only [hm] at h
      change AmbiB.ofMulti { channels := cs, fs := fs, channelCount := cs.length } = _ at h
      have := ofMulti_sync (by rfl) h
      refine ⟨this.1, ?_, ?_⟩
      · have h2 := this.1
        rw [AmbiB.InSync, this.2] at h2
        have := congrArg List.length h2
        simp only [List.length_map, List.length_cons, List.length_nil] at this
        rw [← mapM_length _ _ _ hm]; omega
      · have h2 := this.1
        rw [AmbiB.InSync, this.2] at h2
        have h3 := congrArg List.length h2
        simp only [List.length_map, List.length_cons, List.length_nil] at h3
        rw [this.2]; simpa using h3

/-- A B-format signal of two samples. -/
def bSig : AmbiB := { channels := [⟨[1, 2], 1⟩, ⟨[3, 4], 1⟩, ⟨[5, 6], 1⟩, ⟨[7, 8], 1⟩], fs := 1, channelCount := 4, W := [1, 2], X := [3, 4], Y := [5, 6], Z := [7, 8] }

theorem bSig_init : AmbiB.init [⟨[2], [1, 2]⟩, ⟨[2], [3, 4]⟩, ⟨[2], [5, 6]⟩, ⟨[2], [7, 8]⟩] (some 1) = .ok bSig := by
  simp [AmbiB.init, Multi.init, List.mapM_cons, Mono.init, asarray1d, NDArray.squeeze, Except.map, bind, Except.bind, pure, Except.pure, AmbiB.ofMulti, bSig]

example : bSig.InSync := (C49_init_partial _ _ _ bSig_init).1

/-- **C49** (partial) `resample` to another rate brings the attributes back in step with the channels, whatever happened before: after every history whose last
call is a successful `resample` the attributes are the channels. -/
theorem C49_resample_partial (rs : Resampler) (b : AmbiB) (f : ℝ) (b' : AmbiB) (hf : f ≠ b.fs) (h : b.call rs (.resample f) = (b', none)) : b'.InSync := by
  change b.resample rs f = _ at h
  rw [AmbiB.resample, if_neg hf] at h
  split at h
  · cases h
  · rw [AmbiB.reinit] at h
    split at h
    · cases h
    · rename_i b'' hb
      cases h
      exact (ofMulti_sync (by simp) hb).1

/-- **C49** Between two re-initialisations the attributes never move: after any history of `trim`, `conv` and `apply` calls they are what they were. -/
theorem C49_frozen (rs : Resampler) (b : AmbiB) (ops : List MOp) (hops : ∀ o ∈ ops, ∀ f, o ≠ .resample f) :
    (b.run rs ops).W = b.W ∧ (b.run rs ops).X = b.X ∧ (b.run rs ops).Y = b.Y ∧ (b.run rs ops).Z = b.Z := by
  induction ops generalizing b with
  | nil => simp [AmbiB.run]
  | cons o ops ih =>
    have h := ih (b.call rs o).1 fun q hq => hops q (List.mem_cons_of_mem _ hq)
    cases o with
    | resample f => exact absurd rfl (hops _ (by simp) f)
    | trim s t d => exact h
    | apply r => exact h
    | conv mode irs => exact h

/-- `C49_resample_partial`: after a trim, which leaves attributes and channels out of step, `resample` brings them in step again. -/
example : ∃ b', bSig.call doubler (.resample 2) = (b', none) ∧ b'.InSync := by
  have h : bSig.call doubler (.resample 2) = ((bSig.call doubler (.resample 2)).1, none) := by
    refine Prod.ext rfl ?_
    simp [AmbiB.call, AmbiB.resample, bSig, Multi.resampled, Multi.getSignals, resampleRows, AmbiB.reinit, AmbiB.ofMulti, Except.bind, doubler, unstackSqueezed]
  exact ⟨_, h, C49_resample_partial doubler bSig 2 _ (by norm_num [bSig]) h⟩

/-- `C49_frozen` for a trim. -/
example (rs : Resampler) : (bSig.run rs [.trim 0 (some 1) none]).W = [1, 2] := (C49_frozen rs bSig [.trim 0 (some 1) none] (by simp)).1

/-- **C49** (partial) An object on which only `resample` is called keeps attributes and channels in step, for every history of such calls. -/
theorem C49_resample_history_partial (rs : Resampler) (b : AmbiB) (hb : b.InSync) (hfs : ∃ n, ∀ c ∈ b.channels, c.signal.length = n)
    (ops : List MOp) (hops : ∀ o ∈ ops, ∃ f, o = .resample f) : (b.run rs ops).InSync := by
  induction ops generalizing b with
  | nil => exact hb
  | cons o ops ih =>
    obtain ⟨f, rfl⟩ := hops o (by simp)
    suffices h : (b.resample rs f).1.InSync ∧ ∃ n, ∀ c ∈ (b.resample rs f).1.channels, c.signal.length = n from
      ih _ h.1 h.2 fun q hq => hops q (List.mem_cons_of_mem _ hq)
    have hlen : b.channels.length = 4 := by have := congrArg List.length hb; simpa using this
    rw [AmbiB.resample]
    split
    · exact ⟨hb, hfs⟩
    · split
      · exact ⟨hb, hfs⟩
      · rename_i rows hr
        obtain ⟨n, hn⟩ := hfs
        have hrows : rows = b.channels.map fun c => rs.run b.fs f c.signal := by
          rw [Multi.resampled, Multi.getSignals, if_pos fun c hc c' hc' => (hn c hc).trans (hn c' hc').symm] at hr
          change (resampleRows rs (b.channels.map Mono.signal) b.fs f).bind _ = _ at hr
          match hch : b.channels, hlen with
          | [c1, c2, c3, c4], _ =>
            rw [hch] at hr
            simp only [List.map_cons, resampleRows] at hr
            split at hr
            · cases hr
            · cases hr
              simp
        rw [AmbiB.reinit]
        split
        · rename_i e he
          exfalso
          rw [AmbiB.ofMulti, if_pos (by simp [hrows, hlen])] at he
          cases he
        · rename_i b' hb'
          have h := ofMulti_sync (by simp) hb'
          refine ⟨h.1, rs.len b.fs f n, ?_⟩
          rw [h.2, hrows]
          intro c hc
          simp only [List.mem_map] at hc
          obtain ⟨r, ⟨d, hd, rfl⟩, rfl⟩ := hc
          simp [rs.run_length, hn d hd]

example : (bSig.run doubler [.resample 2, .resample 4]).InSync :=
  C49_resample_history_partial doubler bSig rfl ⟨2, by simp [bSig]⟩ _ (by simp)

/-- **C49** (negative part) `trim` leaves stale attributes: every trim that removes a sample from the first channel breaks the correspondence, so that
`pseudo_intensity` and `b_to_stereo`, which read the attributes, see the untrimmed audio. -/
theorem C49_trim_fails (rs : Resampler) (b : AmbiB) (hb : b.InSync) (start stop : ℝ) (hfs : 0 < b.fs) (hc : ∀ c ∈ b.channels, c.fs = b.fs)
    (h0 : 0 ≤ start) (h1 : 0 ≤ stop) (hs : start * b.fs < b.W.length) (hcut : 1 ≤ start * b.fs ∨ stop * b.fs < b.W.length) :
    (b.call rs (.trim start (some stop) none)).2 = none ∧ ¬ (b.call rs (.trim start (some stop) none)).1.InSync ∧
      bToStereo (b.call rs (.trim start (some stop) none)).1 = bToStereo b := by
  match hch : b.channels with
  | [] => rw [AmbiB.InSync, hch] at hb; simp at hb
  | c0 :: cs =>
    have hW : c0.signal = b.W := by
      rw [AmbiB.InSync, hch, List.map_cons] at hb
      exact (List.cons.inj hb).1
    have ht := (C47_multi b.toMulti c0 cs hch start stop hfs hc h0 h1).1 (by rwa [hW])
    change (b.lift (b.toMulti.trim start (some stop) none)).2 = none ∧ ¬ (b.lift (b.toMulti.trim start (some stop) none)).1.InSync ∧
      bToStereo (b.lift (b.toMulti.trim start (some stop) none)).1 = _
    rw [ht]
    refine ⟨rfl, fun hsync => ?_, rfl⟩
    simp only [AmbiB.lift, AmbiB.InSync, hch, List.map_cons] at hsync
    have h2 := congrArg List.length (List.cons.inj hsync).1
    simp only [List.length_drop, List.length_take, hW] at h2
    have hWpos : 0 < b.W.length := by
      have : (0 : ℝ) < b.W.length := lt_of_le_of_lt (by positivity) hs
      exact_mod_cast this
    rcases hcut with hcut | hcut
    · have : 1 ≤ ⌊start * b.fs⌋₊ := Nat.le_floor (by exact_mod_cast hcut)
      omega
    · have : ⌊stop * b.fs⌋₊ < b.W.length := (Nat.floor_lt (by positivity)).2 hcut
      omega

example (rs : Resampler) : ¬ (bSig.call rs (.trim 0 (some 1) none)).1.InSync :=
  (C49_trim_fails rs bSig rfl 0 1 (by norm_num [bSig]) (by simp [bSig]) (by norm_num) (by norm_num) (by norm_num [bSig]) (by norm_num [bSig])).2.1

/-- **C49** (negative part) `ambeo_a2b` with filter coefficients filters only the attributes: whenever the first filter changes `W`, attributes and channels differ. -/
theorem C49_ambeo_fails (b : AmbiB) (hb : b.InSync) (f0 f1 : List ℝ → List ℝ) (hf : f0 b.W ≠ b.W) : ¬ (ambeoFilter b (some (f0, f1))).InSync := by
  intro h
  simp only [ambeoFilter, AmbiB.InSync] at h
  rw [AmbiB.InSync] at hb
  rw [hb] at h
  exact hf (List.cons.inj h).1.symm

example : ¬ (ambeoFilter bSig (some (List.map (2 * ·), id))).InSync :=
  C49_ambeo_fails bSig rfl _ _ (by simp [bSig])

end Verif.Sig
