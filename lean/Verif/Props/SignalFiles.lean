import Verif.Props.AudioFiles
import Verif.Model.IoSignalFiles

/-! C101: the file methods of the signal classes. -/

namespace Verif.Props

open Verif.Sig Verif.Io

/-- The rate argument is absent or that of the file. -/
def RateOk (fs : Option ℝ) (rate : ℝ) : Prop := fs = none ∨ fs = some rate

theorem readChecked_ok (f : SoundFile) (fs : Option ℝ) (h : RateOk fs f.fs) : readChecked (.ok f) fs = .ok ((sfRead f).1, f.fs) := by
  unfold readChecked
  rcases h with rfl | rfl
  · simp only [Except.bind]
    rw [← read_fs f]
  · simp only [Except.bind, read_fs]
    rw [if_neg (by simp)]

theorem read_rank (f : SoundFile) : (sfRead f).1.shape.length = 1 ↔ f.channels.length = 1 := by
  unfold sfRead
  split_ifs with h <;> simp [h]

theorem multi_ok (f : SoundFile) (hf : f.WF) : Multi.init (splitData (sfRead f).1) (some f.fs) = .ok ⟨f.channels.map fun c => ⟨c, f.fs⟩, f.fs, f.channels.length⟩ := by
  rw [split_read f hf]
  unfold Multi.init
  simp only
  rw [mono_mapM]
  · simp [Except.map, List.map_map, Function.comp_def]
  · intro d hd
    obtain ⟨c, -, rfl⟩ := List.mem_map.mp hd
    exact ⟨f.frames, rfl⟩

/-- **C101**: what the three classes make of a sound file with a fitting rate argument: `MonoSignal` accepts exactly the files with one channel, `MultiSignal`
exactly those with several and `AmbiBSignal` exactly those with four; the signal holds the channels of the file in order and its sampling rate. -/
theorem C101_load (f : SoundFile) (hf : f.WF) (fs : Option ℝ) (h : RateOk fs f.fs) :
    (∀ c, f.channels = [c] → monoFromFile (.ok f) fs = .ok ⟨c, f.fs⟩ ∧ multiFromFile (.ok f) fs = .error .valueError ∧ ambiFromFile (.ok f) fs = .error .valueError) ∧
    (2 ≤ f.channels.length → monoFromFile (.ok f) fs = .error .valueError ∧
      multiFromFile (.ok f) fs = .ok ⟨f.channels.map fun c => ⟨c, f.fs⟩, f.fs, f.channels.length⟩) ∧
    (2 ≤ f.channels.length → f.channels.length ≠ 4 → ambiFromFile (.ok f) fs = .error .assertionError) ∧
    (∀ W X Y Z, f.channels = [W, X, Y, Z] → ambiFromFile (.ok f) fs = .ok ⟨⟨[⟨W, f.fs⟩, ⟨X, f.fs⟩, ⟨Y, f.fs⟩, ⟨Z, f.fs⟩], f.fs, 4⟩, W, X, Y, Z⟩) := by
  unfold monoFromFile multiFromFile ambiFromFile AmbiB.init
  rw [readChecked_ok f fs h]
  simp only [Except.bind, ne_eq, read_rank, multi_ok f hf]
  refine ⟨?_, ?_, ?_, ?_⟩
  · intro c hc
    have h1 : f.channels.length = 1 := by rw [hc]; rfl
    refine ⟨?_, by rw [if_pos h1], by rw [if_pos h1]⟩
    rw [if_neg (not_not.mpr h1)]
    unfold sfRead
    rw [if_pos h1, hc]
    exact mono_init_one _ _ _
  · intro h2
    exact ⟨by rw [if_pos (by omega)], by rw [if_neg (by omega)]⟩
  · intro h2 h4
    rw [if_neg (by omega)]
    unfold AmbiB.ofMulti
    simp only
    rw [if_neg h4]
  · intro W X Y Z hc
    rw [if_neg (by rw [hc]; simp)]
    unfold AmbiB.ofMulti
    simp only [hc, List.length_cons, List.length_nil, List.map_cons, List.map_nil]
    rfl

example : multiFromFile (.ok stereoFile) none = .ok ⟨[⟨[1, 2], 48000⟩, ⟨[3, 4], 48000⟩], 48000, 2⟩ :=
  ((C101_load stereoFile stereoFile_wf none (Or.inl rfl)).2.1 (by simp [stereoFile])).2

example : monoFromFile (.ok monoFile) (some 48000) = .ok ⟨[5, 6, 7], 48000⟩ :=
  ((C101_load monoFile monoFile_wf (some 48000) (Or.inr rfl)).1 [5, 6, 7] rfl).1

/-- **C101**: a file with another sampling rate than the requested one is refused by all three classes, and an exception from opening the file is passed on. -/
theorem C101_reject (f : SoundFile) (r : ℝ) (h : r ≠ f.fs) (e : PyErr) (fs : Option ℝ) :
    monoFromFile (.ok f) (some r) = .error .valueError ∧ multiFromFile (.ok f) (some r) = .error .valueError ∧ ambiFromFile (.ok f) (some r) = .error .valueError ∧
    monoFromFile (.error e) fs = .error e ∧ multiFromFile (.error e) fs = .error e ∧ ambiFromFile (.error e) fs = .error e := by
  unfold monoFromFile multiFromFile ambiFromFile readChecked
  simp only [Except.bind, read_fs, ne_eq, h, not_false_eq_true, if_true, and_self]

example : (44100 : ℝ) ≠ stereoFile.fs := by norm_num [stereoFile]

theorem saved_multi (m : Multi) (n : ℕ) (hn : 0 < n) (hc : m.channels ≠ []) (hl : ∀ c ∈ m.channels, c.signal.length = n) :
    ∃ w, saveSignal (.multi m) = .ok w ∧ w.file = ⟨m.fs, n, m.channels.map Mono.signal⟩ := by
  obtain ⟨w, h1, h2⟩ := save_rows m n hn hc hl
  refine ⟨w, ?_, h2⟩
  unfold saveSignal saveAudio saveData
  simp only [getSignals_rows m n hl, Except.map, Except.bind]
  exact h1

theorem saved_wf (m : Multi) (n : ℕ) (hc : m.channels ≠ []) (hl : ∀ c ∈ m.channels, c.signal.length = n) : (⟨m.fs, n, m.channels.map Mono.signal⟩ : SoundFile).WF := by
  refine ⟨by simpa using hc, fun x hx => ?_⟩
  obtain ⟨c, hc', rfl⟩ := List.mem_map.mp hx
  exact hl c hc'

/-- **C101**: `save` followed by `from_file` returns a `MonoSignal` unchanged. -/
theorem C101_mono (m : Mono) (hm : m.signal ≠ []) (fs : Option ℝ) (h : RateOk fs m.fs) :
    ∃ w, saveSignal (.mono m) = .ok w ∧ monoFromFile (.ok w.file) fs = .ok m := by
  have : ∃ w, saveSignal (.mono m) = .ok w ∧ w.file = ⟨m.fs, m.signal.length, [m.signal]⟩ := by
    unfold saveSignal saveAudio saveData writeData
    simp only [Except.bind]
    rw [if_neg (by simp), if_neg hm]
    exact ⟨_, rfl, rfl⟩
  obtain ⟨w, h1, h2⟩ := this
  refine ⟨w, h1, ?_⟩
  rw [h2]
  exact ((C101_load ⟨m.fs, m.signal.length, [m.signal]⟩ (by simp [SoundFile.WF]) fs h).1 m.signal rfl).1

example : ∃ w, saveSignal (.mono ⟨[1, -2], 44100⟩) = .ok w ∧ monoFromFile (.ok w.file) none = .ok ⟨[1, -2], 44100⟩ := C101_mono _ (by simp) none (Or.inl rfl)

/-- **C101**: `save` followed by `from_file` returns a `MultiSignal` of at least two equally long channels unchanged; one with a single channel cannot be read
back by `MultiSignal.from_file` (`ValueError`), only by `MonoSignal.from_file`. -/
theorem C101_multi (m : Multi) (n : ℕ) (hn : 0 < n) (hl : ∀ c ∈ m.channels, c.signal.length = n) (hr : ∀ c ∈ m.channels, c.fs = m.fs)
    (hcc : m.channelCount = m.channels.length) (hne : m.channels ≠ []) (fs : Option ℝ) (h : RateOk fs m.fs) :
    ∃ w, saveSignal (.multi m) = .ok w ∧ (2 ≤ m.channels.length → multiFromFile (.ok w.file) fs = .ok m) ∧
      (∀ c, m.channels = [c] → multiFromFile (.ok w.file) fs = .error .valueError ∧ monoFromFile (.ok w.file) fs = .ok c) := by
  obtain ⟨w, h1, h2⟩ := saved_multi m n hn hne hl
  refine ⟨w, h1, ?_, ?_⟩
  · intro h3
    rw [h2, ((C101_load _ (saved_wf m n hne hl) fs h).2.1 (by simpa using h3)).2]
    have : (m.channels.map Mono.signal).map (fun c => (⟨c, m.fs⟩ : Mono)) = m.channels := by
      rw [List.map_map]
      conv_rhs => rw [← List.map_id m.channels]
      refine List.map_congr_left fun c hc => ?_
      simp only [Function.comp_apply, id, ← hr c hc]
    simp only [this, List.length_map, ← hcc]
  · intro c hc
    have h3 := (C101_load _ (saved_wf m n hne hl) fs h).1 c.signal (by simp [hc])
    rw [h2]
    refine ⟨h3.2.1, ?_⟩
    rw [h3.1]
    simp only [← hr c (by simp [hc])]

example : ∃ w, saveSignal (.multi ⟨[⟨[1, 2], 48000⟩, ⟨[3, 4], 48000⟩], 48000, 2⟩) = .ok w ∧
    multiFromFile (.ok w.file) (some 48000) = .ok ⟨[⟨[1, 2], 48000⟩, ⟨[3, 4], 48000⟩], 48000, 2⟩ := by
  obtain ⟨w, h1, h2, -⟩ := C101_multi ⟨[⟨[1, 2], 48000⟩, ⟨[3, 4], 48000⟩], 48000, 2⟩ 2 (by norm_num) (by simp) (by simp) rfl (by simp) (some 48000) (Or.inr rfl)
  exact ⟨w, h1, h2 (by simp)⟩

/-- **C101**: `save` followed by `from_file` returns a new `AmbiBSignal` unchanged, including its attributes `W`, `X`, `Y` and `Z`. -/
theorem C101_ambi (W X Y Z : List ℝ) (r : ℝ) (hn : W ≠ []) (hX : X.length = W.length) (hY : Y.length = W.length) (hZ : Z.length = W.length) (fs : Option ℝ) (h : RateOk fs r) :
    ∃ b w, AmbiB.init [⟨[W.length], W⟩, ⟨[X.length], X⟩, ⟨[Y.length], Y⟩, ⟨[Z.length], Z⟩] (some r) = .ok b ∧ saveSignal (.ambiB b) = .ok w ∧ ambiFromFile (.ok w.file) fs = .ok b := by
  have hl : ∀ c ∈ ([⟨W, r⟩, ⟨X, r⟩, ⟨Y, r⟩, ⟨Z, r⟩] : List Mono), c.signal.length = W.length := by simp [hX, hY, hZ]
  obtain ⟨w, h1, h2⟩ := saved_multi ⟨[⟨W, r⟩, ⟨X, r⟩, ⟨Y, r⟩, ⟨Z, r⟩], r, 4⟩ W.length (List.length_pos_iff.mpr hn) (by simp) hl
  refine ⟨⟨⟨[⟨W, r⟩, ⟨X, r⟩, ⟨Y, r⟩, ⟨Z, r⟩], r, 4⟩, W, X, Y, Z⟩, w, ?_, h1, ?_⟩
  · unfold AmbiB.init Multi.init
    simp only [List.mapM_cons, List.mapM_nil, mono_init_one]
    rfl
  · rw [h2]
    exact (C101_load _ (saved_wf ⟨[⟨W, r⟩, ⟨X, r⟩, ⟨Y, r⟩, ⟨Z, r⟩], r, 4⟩ W.length (by simp) hl) fs h).2.2.2 W X Y Z rfl

example : ∃ b w, AmbiB.init [⟨[1], [1]⟩, ⟨[1], [2]⟩, ⟨[1], [3]⟩, ⟨[1], [4]⟩] (some 48000) = .ok b ∧ saveSignal (.ambiB b) = .ok w ∧ ambiFromFile (.ok w.file) none = .ok b :=
  C101_ambi [1] [2] [3] [4] 48000 (by simp) rfl rfl rfl none (Or.inl rfl)

end Verif.Props
