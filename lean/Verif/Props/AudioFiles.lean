import Mathlib.Tactic
import Mathlib.Data.List.GetD
import Verif.Model.IoAudio
import Verif.Proofs.Conv

/-!
C74 (sampling rate check of `save_audio`), C75 (`load_audio`), C82 (saving and loading back).
-/

namespace Verif.Props

open Verif.Sig Verif.Io

/-! ### Rows and columns -/

theorem flatten_getD (c : ℕ) : ∀ (L : List (List ℝ)), (∀ l ∈ L, l.length = c) → ∀ i j, j < c →
    L.flatten.getD (i * c + j) 0 = (L.getD i []).getD j 0
  | [], _, i, j, _ => by simp
  | l :: L, h, 0, j, hj => by
    have hl := h l (by simp)
    simp only [List.flatten_cons, zero_mul, zero_add, List.getD_cons_zero]
    rw [List.getD_append _ _ _ _ (by omega)]
  | l :: L, h, i + 1, j, hj => by
    have hl := h l (by simp)
    simp only [List.flatten_cons, List.getD_cons_succ]
    rw [List.getD_append_right _ _ _ _ (by rw [hl]; nlinarith), hl,
      show (i + 1) * c + j - c = i * c + j by rw [add_mul, one_mul]; omega]
    exact flatten_getD c L (fun l hl => h l (by simp [hl])) i j hj

theorem column_interleave (n : ℕ) (cols : List (List ℝ)) (h : ∀ c ∈ cols, c.length = n) (j : ℕ) (hj : j < cols.length) :
    column n cols.length (interleave n cols) j = cols[j] := by
  have hl : (cols[j]).length = n := h _ (List.getElem_mem hj)
  apply List.ext_getElem
  · simp [column, hl]
  intro i h1 h2
  have hi : i < n := by simpa [column] using h1
  simp only [column, List.getElem_map, List.getElem_range]
  unfold interleave
  rw [List.flatMap_def, flatten_getD cols.length _ (by intro l hl; obtain ⟨_, _, rfl⟩ := List.mem_map.1 hl; simp) i j hj]
  rw [List.getD_eq_getElem (List.map _ (List.range n)) _ (by simpa using hi)]
  simp only [List.getElem_map, List.getElem_range]
  rw [List.getD_eq_getElem _ _ (by simpa using hj)]
  simp only [List.getElem_map]
  rw [List.getD_eq_getElem _ _ (by omega)]

theorem columns_interleave (n : ℕ) (cols : List (List ℝ)) (h : ∀ c ∈ cols, c.length = n) :
    (List.range cols.length).map (column n cols.length (interleave n cols)) = cols := by
  apply List.ext_getElem
  · simp
  intro j h1 h2
  simp only [List.getElem_map, List.getElem_range]
  exact column_interleave n cols h j h2

/-! ### C75 -/

theorem split_read (f : SoundFile) (hf : f.WF) : splitData (sfRead f).1 = f.channels.map fun c => ⟨[f.frames], c⟩ := by
  unfold sfRead
  split_ifs with h
  · obtain ⟨c, hc⟩ := List.length_eq_one_iff.1 h
    simp [splitData, hc]
  · show (List.range f.channels.length).map (fun j => (⟨[f.frames], column f.frames f.channels.length _ j⟩ : NDArray ℝ)) = _
    have := congrArg (List.map fun c => (⟨[f.frames], c⟩ : NDArray ℝ)) (columns_interleave f.frames f.channels hf.2)
    rwa [List.map_map] at this

theorem read_fs (f : SoundFile) : (sfRead f).2 = f.fs := by unfold sfRead; split_ifs <;> rfl

theorem mapM_read (files : List SoundFile) :
    (files.map Except.ok).mapM (fun f : Py SoundFile => f.map sfRead) = .ok (files.map sfRead) := by
  induction files with
  | nil => rfl
  | cons f fs ih => rw [List.map_cons, List.mapM_cons, ih]; rfl

theorem mono_init_one (n : ℕ) (c : List ℝ) (fs : ℝ) : Mono.init ⟨[n], c⟩ fs = .ok ⟨c, fs⟩ := by
  unfold Mono.init Utils.asarray1d NDArray.squeeze
  by_cases h : n = 1 <;> simp [h, Except.map]

theorem mono_init_stack (n : ℕ) (c : List ℝ) (fs : ℝ) : Mono.init (stackOne ⟨[n], c⟩) fs = .ok ⟨c, fs⟩ := by
  unfold Mono.init stackOne Utils.asarray1d NDArray.squeeze
  by_cases h : n = 1 <;> simp [h, Except.map]

theorem mono_mapM (ds : List (NDArray ℝ)) (fs : ℝ) (h : ∀ d ∈ ds, ∃ n : ℕ, d.shape = [n]) :
    (ds.mapM fun s => Mono.init s fs) = .ok (ds.map fun d => ⟨d.data, fs⟩) := by
  induction ds with
  | nil => rfl
  | cons d ds ih =>
    obtain ⟨n, hn⟩ := h d (by simp)
    have hd : d = ⟨[n], d.data⟩ := by cases d; simp_all
    rw [List.mapM_cons, ih fun d hd => h d (by simp [hd]), hd, mono_init_one]; rfl

/-- A signal object at rate `fs` with the given channels: mono for one channel, multichannel otherwise. -/
def asSignal (fs : ℝ) : List (List ℝ) → Loaded
  | [c] => .mono ⟨c, fs⟩
  | cs => .multi ⟨cs.map fun c => ⟨c, fs⟩, fs, cs.length⟩

/-- C75: the channels of all files, in the order of the files and of the channels in each file, at the common sampling rate. -/
theorem C75_channels (files : List SoundFile) (hf : ∀ f ∈ files, f.WF) (hne : files ≠ []) (rate : ℝ) (hr : ∀ f ∈ files, f.fs = rate)
    (fs : Option ℝ) (hfs : ∀ r, fs = some r → r = rate) :
    loadAudio (files.map .ok) fs = .ok (asSignal rate (files.flatMap SoundFile.channels)) := by
  unfold loadAudio
  rw [mapM_read]
  obtain ⟨f, rest, rfl⟩ := List.exists_cons_of_ne_nil hne
  have h0 : (sfRead f).2 = rate := by rw [read_fs]; exact hr f (by simp)
  have hall : ∀ x ∈ (f :: rest).map sfRead, x.2 = (sfRead f).2 := by
    intro x hx
    obtain ⟨g, hg, rfl⟩ := List.mem_map.1 hx
    rw [read_fs, hr g hg, h0]
  have hdata : ((f :: rest).map sfRead).flatMap (fun x => splitData x.1)
      = (f :: rest).flatMap fun g => g.channels.map fun c => ⟨[g.frames], c⟩ := by
    rw [List.flatMap_map]
    apply List.flatMap_congr
    intro g hg
    exact split_read g (hf g hg)
  have hchan : (((f :: rest).flatMap fun g => g.channels.map fun c => (⟨[g.frames], c⟩ : NDArray ℝ))).map NDArray.data
      = (f :: rest).flatMap SoundFile.channels := by
    rw [List.map_flatMap]
    apply List.flatMap_congr
    intro g _
    rw [List.map_map]
    exact List.map_id _
  have hshape : ∀ d ∈ (f :: rest).flatMap fun g => g.channels.map fun c => (⟨[g.frames], c⟩ : NDArray ℝ), ∃ n : ℕ, d.shape = [n] := by
    intro d hd
    obtain ⟨g, _, hg⟩ := List.mem_flatMap.1 hd
    obtain ⟨c, _, rfl⟩ := List.mem_map.1 hg
    exact ⟨_, rfl⟩
  set ds := (f :: rest).flatMap fun g => g.channels.map fun c => (⟨[g.frames], c⟩ : NDArray ℝ) with hds
  show (if ¬ ∀ x ∈ (f :: rest).map sfRead, x.2 = (sfRead f).2 then (Except.error .assertionError : Py Loaded)
    else if ∃ r, fs = some r ∧ r ≠ (sfRead f).2 then .error .valueError
    else match ((f :: rest).map sfRead).flatMap (fun x => splitData x.1) with
      | [d] => (Mono.init (stackOne d) (sfRead f).2).map .mono
      | ds => (Multi.init ds (some (sfRead f).2)).map .multi) = _
  rw [if_neg (not_not.2 hall), if_neg (by rintro ⟨r, h1, h2⟩; exact h2 ((hfs r h1).trans h0.symm)), hdata, h0, ← hchan]
  have key : ∀ ds : List (NDArray ℝ), (∀ d ∈ ds, ∃ n : ℕ, d.shape = [n]) →
      (match ds with
        | [d] => (Mono.init (stackOne d) rate).map Loaded.mono
        | ds => (Multi.init ds (some rate)).map Loaded.multi) = .ok (asSignal rate (ds.map NDArray.data)) := by
    intro ds hshape
    have hmulti : (Multi.init ds (some rate)).map Loaded.multi = .ok (.multi ⟨(ds.map NDArray.data).map fun c => ⟨c, rate⟩, rate, (ds.map NDArray.data).length⟩) := by
      unfold Multi.init
      simp only [mono_mapM ds rate hshape]
      simp [Except.map, Function.comp_def]
    rcases ds with _ | ⟨d, _ | ⟨d', ds⟩⟩
    · exact hmulti
    · obtain ⟨n, hn⟩ := hshape d (by simp)
      have hd : d = ⟨[n], d.data⟩ := by cases d; simp_all
      show (Mono.init (stackOne d) rate).map Loaded.mono = _
      rw [hd, mono_init_stack]; rfl
    · exact hmulti
  exact key ds hshape

/-- C75: files with differing rates raise. -/
theorem C75_rates (files : List SoundFile) (f g : SoundFile) (hf : f ∈ files) (hg : g ∈ files) (h : f.fs ≠ g.fs) (fs : Option ℝ) :
    loadAudio (files.map .ok) fs = .error .assertionError := by
  unfold loadAudio
  rw [mapM_read]
  obtain ⟨a, rest, rfl⟩ := List.exists_cons_of_ne_nil (List.ne_nil_of_mem hf)
  show (if ¬ ∀ x ∈ (a :: rest).map sfRead, x.2 = (sfRead a).2 then (Except.error .assertionError : Py Loaded) else _) = _
  rw [if_pos]
  intro hall
  have h1 := hall _ (List.mem_map_of_mem hf)
  have h2 := hall _ (List.mem_map_of_mem hg)
  rw [read_fs] at h1 h2
  exact h (h1.trans h2.symm)

/-- C75: a rate different from the requested one raises. -/
theorem C75_requested (files : List SoundFile) (hne : files ≠ []) (rate r : ℝ) (hr : ∀ f ∈ files, f.fs = rate) (h : r ≠ rate) :
    loadAudio (files.map .ok) (some r) = .error .valueError := by
  unfold loadAudio
  rw [mapM_read]
  obtain ⟨a, rest, rfl⟩ := List.exists_cons_of_ne_nil hne
  have h0 : (sfRead a).2 = rate := by rw [read_fs]; exact hr a (by simp)
  show (if ¬ ∀ x ∈ (a :: rest).map sfRead, x.2 = (sfRead a).2 then (Except.error .assertionError : Py Loaded)
    else if ∃ r', some r = some r' ∧ r' ≠ (sfRead a).2 then .error .valueError else _) = _
  rw [if_neg, if_pos ⟨r, rfl, by rw [h0]; exact h⟩]
  rw [not_not]
  intro x hx
  obtain ⟨g, hg, rfl⟩ := List.mem_map.1 hx
  rw [read_fs, hr g hg, h0]

/-- C75: an empty list and a file that cannot be opened raise. -/
theorem C75_missing (fs : Option ℝ) : loadAudio [] fs = .error .indexError ∧
    ∀ (pre : List SoundFile) (e : PyErr) (post : List (Py SoundFile)), loadAudio (pre.map .ok ++ .error e :: post) fs = .error e := by
  refine ⟨rfl, fun pre e post => ?_⟩
  have : (pre.map Except.ok ++ Except.error e :: post : List (Py SoundFile)).mapM (fun f : Py SoundFile => f.map sfRead) = .error e := by
    induction pre with
    | nil => rw [List.map_nil, List.nil_append, List.mapM_cons]; rfl
    | cons f pre ih => rw [List.map_cons, List.cons_append, List.mapM_cons, ih]; rfl
  unfold loadAudio
  rw [this]; rfl

/-- A stereo and a mono file of one frame. -/
def stereoFile : SoundFile := ⟨48000, 2, [[1, 2], [3, 4]]⟩
/-- A mono file. -/
def monoFile : SoundFile := ⟨48000, 3, [[5, 6, 7]]⟩

theorem stereoFile_wf : stereoFile.WF := ⟨by simp [stereoFile], by simp [stereoFile]⟩
theorem monoFile_wf : monoFile.WF := ⟨by simp [monoFile], by simp [monoFile]⟩

example : loadAudio [.ok stereoFile, .ok monoFile] none
    = .ok (.multi ⟨[⟨[1, 2], 48000⟩, ⟨[3, 4], 48000⟩, ⟨[5, 6, 7], 48000⟩], 48000, 3⟩) :=
  C75_channels [stereoFile, monoFile] (by simp [stereoFile_wf, monoFile_wf]) (by simp) 48000 (by simp [stereoFile, monoFile]) none (by simp)

example : loadAudio [.ok stereoFile, .ok { monoFile with fs := 44100 }] none = .error .assertionError :=
  C75_rates [stereoFile, { monoFile with fs := 44100 }] stereoFile { monoFile with fs := 44100 } (by simp) (by simp) (by norm_num [stereoFile]) none

example : loadAudio [.ok monoFile] (some 44100) = .error .valueError :=
  C75_requested [monoFile] (by simp) 48000 44100 (by simp [monoFile]) (by norm_num)

/-! ### C74 -/

/-- The sampling rate of a signal object. -/
def signalRate : Saveable → Option ℝ
  | .mono m => some m.fs
  | .multi m => some m.fs
  | .ambiB b => some b.fs
  | _ => none

/-- C74 is false: for a signal object the argument `fs` has no effect at all, … -/
theorem C74_ignored (s : Saveable) (rate : ℝ) (h : signalRate s = some rate) (fs : Option ℝ) : saveAudio s fs = saveAudio s none := by
  cases s <;> first | rfl | simp [signalRate] at h

/-- `C74_ignored` for a mono signal. -/
example : saveAudio (.mono ⟨[1, 2], 44100⟩) (some 48000) = saveAudio (.mono ⟨[1, 2], 44100⟩) none :=
  C74_ignored _ 44100 rfl _

/-- … so every non-empty `MonoSignal` is written, at its own rate, whatever rate was passed. -/
theorem C74_fails (m : Mono) (hm : m.signal ≠ []) (fs : ℝ) (_ : fs ≠ m.fs) :
    ∃ w, saveAudio (.mono m) (some fs) = .ok w ∧ w.file = ⟨m.fs, m.signal.length, [m.signal]⟩ := by
  unfold saveAudio saveData writeData
  simp only [Except.bind]
  rw [if_neg (by simp), if_neg hm]
  exact ⟨_, rfl, rfl⟩

/-- C74, what holds: a plain array needs `fs` and is written with it; and no call that writes a file writes a rate other than that of
the object or the one passed for an array.  Missing: the check for signal objects, which is not performed (`C74_fails`). -/
theorem C74_rate_partial (s : Saveable) (fs : Option ℝ) :
    (∀ a, s = .array a → fs = none → saveAudio s fs = .error .valueError) ∧
    ∀ w, saveAudio s fs = .ok w → some w.file.fs = (signalRate s).or fs := by
  refine ⟨by rintro a rfl rfl; rfl, fun w hw => ?_⟩
  have hwrite : ∀ (d : NDArray ℝ) (r : ℝ) (w : Saved), writeData d r = .ok w → w.file.fs = r := by
    intro d r w h
    unfold writeData at h
    split_ifs at h
    rcases hs : sfWrite d r with e | f
    · rw [hs] at h; cases h
    · rw [hs] at h
      cases h
      unfold sfWrite at hs
      split at hs <;> cases hs <;> rfl
  have hb : ∃ d r, saveData s fs = .ok (d, r) ∧ writeData d r = .ok w := by
    unfold saveAudio at hw
    rcases h : saveData s fs with e | ⟨d, r⟩
    · rw [h] at hw; cases hw
    · rw [h] at hw; exact ⟨d, r, rfl, hw⟩
  obtain ⟨d, r, h1, h2⟩ := hb
  rw [hwrite d r w h2]
  unfold saveData at h1
  cases s with
  | mono m => cases h1; rfl
  | multi m =>
    rcases hg : m.getSignals with e | rows
    · simp only [hg] at h1; cases h1
    · simp only [hg] at h1; cases h1; rfl
  | ambiB b =>
    rcases hg : b.toMulti.getSignals with e | rows
    · simp only [hg] at h1; cases h1
    · simp only [hg] at h1; cases h1; rfl
  | array a =>
    rcases fs with _ | r'
    · cases h1
    · cases h1; rfl
  | other => cases h1

example : ∃ w, saveAudio (.mono ⟨[1, 2], 44100⟩) (some 48000) = .ok w ∧ w.file.fs = 44100 := by
  obtain ⟨w, h1, h2⟩ := C74_fails ⟨[1, 2], 44100⟩ (by simp) 48000 (by norm_num)
  exact ⟨w, h1, by rw [h2]⟩

/-! ### C82 -/

theorem getSignals_rows (m : Multi) (n : ℕ) (h : ∀ c ∈ m.channels, c.signal.length = n) : m.getSignals = .ok (m.channels.map Mono.signal) := by
  unfold Multi.getSignals
  rw [if_pos]
  intro c hc c' hc'
  rw [h c hc, h c' hc']

theorem interleave_ne (n : ℕ) (hn : 0 < n) (c : List ℝ) (cols : List (List ℝ)) : interleave n (c :: cols) ≠ [] := by
  intro h
  have := congrArg List.length h
  unfold interleave at this
  simp only [List.length_flatMap, List.length_map, List.length_cons, List.length_nil] at this
  simp at this
  omega

theorem save_rows (m : Multi) (n : ℕ) (hn : 0 < n) (hc : m.channels ≠ []) (hl : ∀ c ∈ m.channels, c.signal.length = n) :
    ∃ w, writeData (transposed (m.channels.map Mono.signal)) m.fs = .ok w ∧ w.file = ⟨m.fs, n, m.channels.map Mono.signal⟩ := by
  obtain ⟨c, cs, hcs⟩ := List.exists_cons_of_ne_nil hc
  have h0 : c.signal.length = n := hl c (by simp [hcs])
  have ht : transposed (m.channels.map Mono.signal) = ⟨[n, (m.channels.map Mono.signal).length], interleave n (m.channels.map Mono.signal)⟩ := by
    rw [hcs, List.map_cons]
    show (⟨[c.signal.length, _], interleave c.signal.length _⟩ : NDArray ℝ) = _
    rw [h0]
  rw [ht]
  unfold writeData
  rw [if_neg (by simp), if_neg (by rw [hcs, List.map_cons]; exact interleave_ne n hn _ _)]
  refine ⟨_, rfl, ?_⟩
  show (⟨m.fs, n, (List.range _).map (column n _ _)⟩ : SoundFile) = _
  rw [columns_interleave]
  intro x hx
  obtain ⟨d, hd, rfl⟩ := List.mem_map.1 hx
  exact hl d hd

/-- C82 for a `MonoSignal`: what was saved is loaded again. -/
theorem C82_mono (m : Mono) (hm : m.signal ≠ []) (fs : Option ℝ) :
    ∃ w, saveAudio (.mono m) fs = .ok w ∧ loadAudio [.ok w.file] none = .ok (.mono m) := by
  have : ∃ w, saveAudio (.mono m) fs = .ok w ∧ w.file = ⟨m.fs, m.signal.length, [m.signal]⟩ := by
    unfold saveAudio saveData writeData
    simp only [Except.bind]
    rw [if_neg (by simp), if_neg hm]
    exact ⟨_, rfl, rfl⟩
  obtain ⟨w, h1, h2⟩ := this
  refine ⟨w, h1, ?_⟩
  rw [h2]
  have := C75_channels [⟨m.fs, m.signal.length, [m.signal]⟩] (by simp [SoundFile.WF]) (by simp) m.fs (by simp) none (by simp)
  simpa [asSignal] using this

/-- `C82_mono` for two samples. -/
example : ∃ w, saveAudio (.mono ⟨[1 / 2, -1], 44100⟩) none = .ok w ∧ loadAudio [.ok w.file] none = .ok (.mono ⟨[1 / 2, -1], 44100⟩) :=
  C82_mono ⟨[1 / 2, -1], 44100⟩ (by simp) none

/-- C82 for a `MultiSignal` whose channels share its rate and a common length: saved and loaded again it is the same signal, if it has
at least two channels.  The argument `fs` is irrelevant. -/
theorem C82_multi (m : Multi) (n : ℕ) (hn : 0 < n) (hl : ∀ c ∈ m.channels, c.signal.length = n) (hr : ∀ c ∈ m.channels, c.fs = m.fs)
    (hc : m.channelCount = m.channels.length) (h2 : 2 ≤ m.channels.length) (fs : Option ℝ) :
    ∃ w, saveAudio (.multi m) fs = .ok w ∧ loadAudio [.ok w.file] (some m.fs) = .ok (.multi m) := by
  have hne : m.channels ≠ [] := by intro h; rw [h] at h2; simp at h2
  obtain ⟨w, h1, hw⟩ := save_rows m n hn hne hl
  refine ⟨w, ?_, ?_⟩
  · unfold saveAudio saveData
    simp only [getSignals_rows m n hl, Except.map, Except.bind]
    exact h1
  · rw [hw]
    have hwf : (⟨m.fs, n, m.channels.map Mono.signal⟩ : SoundFile).WF := by
      refine ⟨by simpa using hne, ?_⟩
      intro x hx
      obtain ⟨d, hd, rfl⟩ := List.mem_map.1 hx
      exact hl d hd
    have := C75_channels [⟨m.fs, n, m.channels.map Mono.signal⟩] (by simpa using hwf) (by simp) m.fs (by simp) (some m.fs) (by simp)
    rw [List.map_cons, List.map_nil] at this
    rw [this]
    simp only [List.flatMap_cons, List.flatMap_nil, List.append_nil]
    obtain ⟨a, b, cs, hcs⟩ : ∃ a b cs, m.channels = a :: b :: cs := by
      rcases hm : m.channels with _ | ⟨a, _ | ⟨b, cs⟩⟩
      · exact absurd hm hne
      · rw [hm] at h2; simp at h2
      · exact ⟨a, b, cs, rfl⟩
    rw [hcs]
    show Except.ok (Loaded.multi ⟨((a :: b :: cs).map Mono.signal).map fun c => ⟨c, m.fs⟩, m.fs, ((a :: b :: cs).map Mono.signal).length⟩) = _
    rw [← hcs]
    congr 2
    have e : (m.channels.map Mono.signal).map (fun c => (⟨c, m.fs⟩ : Mono)) = m.channels := by
      rw [List.map_map]
      conv_rhs => rw [← List.map_id m.channels]
      apply List.map_congr_left
      intro c hcm
      show (⟨c.signal, m.fs⟩ : Mono) = c
      rw [← hr c hcm]
    rw [e, List.length_map, ← hc]

/-- C82 for an `AmbiBSignal`, built from four arrays of the same length: saved and loaded again its channels W, X, Y, Z are the channels of the file, in this
order. -/
theorem C82_ambi (W X Y Z : List ℝ) (r : ℝ) (hn : W ≠ []) (hX : X.length = W.length) (hY : Y.length = W.length) (hZ : Z.length = W.length) (fs : Option ℝ) :
    ∃ b w, AmbiB.init [⟨[W.length], W⟩, ⟨[X.length], X⟩, ⟨[Y.length], Y⟩, ⟨[Z.length], Z⟩] (some r) = .ok b ∧ b.W = W ∧ b.X = X ∧ b.Y = Y ∧ b.Z = Z ∧
      saveAudio (.ambiB b) fs = .ok w ∧ loadAudio [.ok w.file] (some r) = .ok (.multi ⟨[⟨W, r⟩, ⟨X, r⟩, ⟨Y, r⟩, ⟨Z, r⟩], r, 4⟩) := by
  obtain ⟨w, h1, h2⟩ := C82_multi ⟨[⟨W, r⟩, ⟨X, r⟩, ⟨Y, r⟩, ⟨Z, r⟩], r, 4⟩ W.length (List.length_pos_iff.2 hn) (by simp [hX, hY, hZ]) (by simp) rfl (by simp) fs
  refine ⟨⟨⟨[⟨W, r⟩, ⟨X, r⟩, ⟨Y, r⟩, ⟨Z, r⟩], r, 4⟩, W, X, Y, Z⟩, w, ?_, rfl, rfl, rfl, rfl, ?_, h2⟩
  · unfold AmbiB.init Multi.init
    simp only [List.mapM_cons, List.mapM_nil, mono_init_one]
    rfl
  · rw [← h1]
    rfl

example : ∃ b w, AmbiB.init [⟨[1], [1]⟩, ⟨[1], [2]⟩, ⟨[1], [3]⟩, ⟨[1], [4]⟩] (some 48000) = .ok b ∧ saveAudio (.ambiB b) none = .ok w := by
  obtain ⟨b, w, h1, -, -, -, -, h2, -⟩ := C82_ambi [1] [2] [3] [4] 48000 (by simp) rfl rfl rfl none
  exact ⟨b, w, h1, h2⟩

/-- C82: the two warnings of `save_audio`.  For channels of a common length `n`, it warns about the channels exactly if there are more channels than
samples, and about clipping exactly if some sample of some channel has a magnitude above one. -/
theorem C82_warnings (m : Multi) (n : ℕ) (hn : 0 < n) (hl : ∀ c ∈ m.channels, c.signal.length = n) (hc : m.channels ≠ []) (fs : Option ℝ) :
    ∃ w, saveAudio (.multi m) fs = .ok w ∧ (w.warnChannels = true ↔ n < m.channels.length) ∧
      (w.warnClipped = true ↔ ∃ c ∈ m.channels, ∃ v ∈ c.signal, v < -1 ∨ 1 < v) := by
  obtain ⟨c, cs, hcs⟩ := List.exists_cons_of_ne_nil hc
  have h0 : c.signal.length = n := hl c (by simp [hcs])
  have ht : transposed (m.channels.map Mono.signal) = ⟨[n, (m.channels.map Mono.signal).length], interleave n (m.channels.map Mono.signal)⟩ := by
    rw [hcs, List.map_cons]
    show (⟨[c.signal.length, _], interleave c.signal.length _⟩ : NDArray ℝ) = _
    rw [h0]
  have hmem : ∀ v, v ∈ interleave n (m.channels.map Mono.signal) ↔ ∃ c ∈ m.channels, v ∈ c.signal := by
    intro v
    unfold interleave
    simp only [List.mem_flatMap, List.mem_range, List.mem_map]
    constructor
    · rintro ⟨i, hi, _, ⟨d, hd, rfl⟩, rfl⟩
      refine ⟨d, hd, ?_⟩
      rw [List.getD_eq_getElem?_getD, List.getElem?_eq_getElem (by rw [hl d hd]; exact hi)]
      exact List.getElem_mem _
    · rintro ⟨d, hd, hv⟩
      obtain ⟨i, hi, rfl⟩ := List.mem_iff_getElem.mp hv
      refine ⟨i, by rw [← hl d hd]; exact hi, _, ⟨d, hd, rfl⟩, ?_⟩
      rw [List.getD_eq_getElem?_getD, List.getElem?_eq_getElem hi]
      rfl
  unfold saveAudio saveData
  simp only [getSignals_rows m n hl, Except.map, Except.bind]
  rw [ht]
  unfold writeData
  rw [if_neg (by simp), if_neg (by rw [hcs, List.map_cons]; exact interleave_ne n hn _ _)]
  refine ⟨_, rfl, ?_, ?_⟩
  · simp
  · simp only [decide_eq_true_eq, hmem]
    constructor
    · rintro ⟨v, ⟨d, hd, hv⟩, h⟩
      exact ⟨d, hd, v, hv, by rcases lt_abs.mp h with h | h <;> [right; left] <;> linarith⟩
    · rintro ⟨d, hd, v, hv, h⟩
      exact ⟨v, ⟨d, hd, hv⟩, by rw [lt_abs]; rcases h with h | h <;> [right; left] <;> linarith⟩

/-- One sample in two channels, one of them `-2`: both warnings. -/
example : ∃ w, saveAudio (.multi ⟨[⟨[-2], 48000⟩, ⟨[1], 48000⟩], 48000, 2⟩) none = .ok w ∧ w.warnChannels = true ∧ w.warnClipped = true := by
  obtain ⟨w, h1, h2, h3⟩ := C82_warnings ⟨[⟨[-2], 48000⟩, ⟨[1], 48000⟩], 48000, 2⟩ 1 one_pos (by simp) (by simp) none
  exact ⟨w, h1, h2.mpr (by simp), h3.mpr ⟨⟨[-2], 48000⟩, by simp, -2, by simp, by norm_num⟩⟩

/-- The same for a `MonoSignal`, which never gives the warning about the channels. -/
theorem C82_mono_warnings (m : Mono) (hm : m.signal ≠ []) (fs : Option ℝ) :
    ∃ w, saveAudio (.mono m) fs = .ok w ∧ w.warnChannels = false ∧ (w.warnClipped = true ↔ ∃ v ∈ m.signal, v < -1 ∨ 1 < v) := by
  unfold saveAudio saveData writeData
  simp only [Except.bind]
  rw [if_neg (by simp), if_neg hm]
  refine ⟨_, rfl, by simp, ?_⟩
  simp only [decide_eq_true_eq]
  constructor
  · rintro ⟨v, hv, h⟩
    exact ⟨v, hv, by rcases lt_abs.mp h with h | h <;> [right; left] <;> linarith⟩
  · rintro ⟨v, hv, h⟩
    exact ⟨v, hv, by rw [lt_abs]; rcases h with h | h <;> [right; left] <;> linarith⟩

/-- `C82_mono_warnings` for a signal that clips. -/
example : ∃ w, saveAudio (.mono ⟨[1 / 2, -2], 44100⟩) none = .ok w ∧ w.warnClipped = true := by
  obtain ⟨w, h1, -, h2⟩ := C82_mono_warnings ⟨[1 / 2, -2], 44100⟩ (by simp) none
  exact ⟨w, h1, h2.2 ⟨-2, by simp, by norm_num⟩⟩

/-- C82, the exception: a `MultiSignal` with one channel comes back as a `MonoSignal`. -/
theorem C82_single (c : Mono) (hc : c.signal ≠ []) (fs : Option ℝ) :
    ∃ w, saveAudio (.multi ⟨[c], c.fs, 1⟩) fs = .ok w ∧ loadAudio [.ok w.file] none = .ok (.mono c) := by
  obtain ⟨w, h1, hw⟩ := save_rows ⟨[c], c.fs, 1⟩ c.signal.length (List.length_pos_iff.2 hc) (by simp) (by simp)
  refine ⟨w, ?_, ?_⟩
  · unfold saveAudio saveData
    simp only [getSignals_rows ⟨[c], c.fs, 1⟩ c.signal.length (by simp), Except.map, Except.bind]
    exact h1
  · rw [hw]
    have := C75_channels [⟨c.fs, c.signal.length, [c.signal]⟩] (by simp [SoundFile.WF]) (by simp) c.fs (by simp) none (by simp)
    simpa [asSignal] using this

/-- C82 for plain arrays, which need a rate: a one-dimensional array comes back as a `MonoSignal`, an array of `n` samples times `c` channels as the signal of its columns;
three-dimensional arrays raise `AssertionError`, and objects that are neither signals nor arrays `NotImplementedError`. -/
theorem C82_array (fs : ℝ) :
    (∀ l : List ℝ, l ≠ [] → ∃ w, saveAudio (.array ⟨[l.length], l⟩) (some fs) = .ok w ∧ loadAudio [.ok w.file] none = .ok (.mono ⟨l, fs⟩)) ∧
    (∀ (n c : ℕ) (l : List ℝ), l.length = n * c → l ≠ [] → ∃ w, saveAudio (.array ⟨[n, c], l⟩) (some fs) = .ok w ∧
      loadAudio [.ok w.file] none = .ok (asSignal fs ((List.range c).map fun j => (List.range n).map fun i => l.getD (i * c + j) 0)) ∧
      (w.warnChannels = true ↔ n < c) ∧ (w.warnClipped = true ↔ ∃ v ∈ l, 1 < |v|)) ∧
    (∀ a : NDArray ℝ, 2 < a.shape.length → saveAudio (.array a) (some fs) = .error .assertionError) ∧
    ∀ r : Option ℝ, saveAudio .other r = .error .notImplementedError := by
  refine ⟨fun l hl => ?_, fun n c l hn hl => ?_, fun a ha => ?_, fun r => rfl⟩
  · unfold saveAudio saveData writeData
    simp only [Except.bind]
    rw [if_neg (by simp), if_neg hl]
    refine ⟨_, rfl, ?_⟩
    exact C75_channels [⟨fs, l.length, [l]⟩] (by simp [SoundFile.WF]) (by simp) fs (by simp) none (by simp)
  · have hc : 0 < c := by
      rcases Nat.eq_zero_or_pos c with rfl | h
      · rw [Nat.mul_zero, List.length_eq_zero_iff] at hn; exact absurd hn hl
      · exact h
    unfold saveAudio saveData writeData
    simp only [Except.bind]
    rw [if_neg (by simp), if_neg hl]
    refine ⟨_, rfl, ?_, by simp, by simp⟩
    have := C75_channels [⟨fs, n, (List.range c).map (column n c l)⟩] (by
      simp only [List.mem_singleton, forall_eq, SoundFile.WF]
      refine ⟨by simp; omega, fun x hx => ?_⟩
      obtain ⟨j, _, rfl⟩ := List.mem_map.1 hx
      simp [column]) (by simp) fs (by simp) none (by simp)
    simp only [List.map_cons, List.map_nil, List.flatMap_cons, List.flatMap_nil, List.append_nil] at this
    exact this
  · unfold saveAudio saveData writeData
    simp only [Except.bind]
    rw [if_pos ha]

/-- `C82_array`: two samples of three channels. -/
example : ∃ w, saveAudio (.array ⟨[2, 3], [1, 2, 3, 4, 5, 6]⟩) (some 48000) = .ok w ∧
    loadAudio [.ok w.file] none = .ok (.multi ⟨[⟨[1, 4], 48000⟩, ⟨[2, 5], 48000⟩, ⟨[3, 6], 48000⟩], 48000, 3⟩) := by
  obtain ⟨w, h, h', -⟩ := (C82_array 48000).2.1 2 3 [1, 2, 3, 4, 5, 6] rfl (by simp)
  exact ⟨w, h, h'⟩

/-- `C82_single` for two samples. -/
example : ∃ w, saveAudio (.multi ⟨[⟨[1 / 2, -1], 44100⟩], 44100, 1⟩) none = .ok w ∧ loadAudio [.ok w.file] none = .ok (.mono ⟨[1 / 2, -1], 44100⟩) :=
  C82_single ⟨[1 / 2, -1], 44100⟩ (by simp) none

/-- C82: channels of different lengths, and signals without samples, are not saved. -/
theorem C82_reject (m : Multi) (fs : Option ℝ)
    (h : m.channels = [] ∨ (∃ c ∈ m.channels, c.signal = []) ∨ ∃ c ∈ m.channels, ∃ c' ∈ m.channels, c.signal.length ≠ c'.signal.length) :
    saveAudio (.multi m) fs = .error .valueError := by
  unfold saveAudio saveData
  by_cases hg : ∀ c ∈ m.channels, ∀ c' ∈ m.channels, c.signal.length = c'.signal.length
  · have : m.getSignals = .ok (m.channels.map Mono.signal) := by unfold Multi.getSignals; rw [if_pos hg]
    simp only [this, Except.map, Except.bind]
    have hempty : (transposed (m.channels.map Mono.signal)).data = [] ∧ (transposed (m.channels.map Mono.signal)).shape.length ≤ 2 := by
      rcases hm : m.channels with _ | ⟨a, cs⟩
      · exact ⟨rfl, by simp [transposed]⟩
      · have ha : a.signal = [] := by
          rcases h with h | ⟨c, hc, h⟩ | ⟨c, hc, c', hc', h⟩
          · rw [hm] at h; cases h
          · have := hg a (by simp [hm]) c hc
            rw [h] at this
            exact List.length_eq_zero_iff.1 this
          · exact absurd (hg c hc c' hc') h
        simp [transposed, ha, interleave]
    unfold writeData
    rw [if_neg (by omega), if_pos hempty.1]
  · have : m.getSignals = .error .valueError := by unfold Multi.getSignals; rw [if_neg hg]
    simp only [this, Except.map, Except.bind]

example : ∃ w, saveAudio (.multi ⟨[⟨[1, 2], 48000⟩, ⟨[3, 4], 48000⟩], 48000, 2⟩) none = .ok w ∧
    loadAudio [.ok w.file] (some 48000) = .ok (.multi ⟨[⟨[1, 2], 48000⟩, ⟨[3, 4], 48000⟩], 48000, 2⟩) :=
  C82_multi ⟨[⟨[1, 2], 48000⟩, ⟨[3, 4], 48000⟩], 48000, 2⟩ 2 (by norm_num) (by simp) (by simp) rfl (by simp) none

example : saveAudio (.multi ⟨[⟨[1, 2], 48000⟩, ⟨[3], 48000⟩], 48000, 2⟩) none = .error .valueError :=
  C82_reject _ none (.inr (.inr ⟨⟨[1, 2], 48000⟩, by simp, ⟨[3], 48000⟩, by simp, by simp⟩))

end Verif.Props
