import Verif.Model.SigBasics
import Verif.Props.ShFormats
import Verif.Props.Hrirs
import Mathlib.Tactic

/-!
C115: the signal classes as containers.
-/

namespace Verif.Props
open Real Verif.Sig Verif.Utils Verif.Sph

/-- Python indexing of a sequence. -/
theorem pyGet_spec {α : Type} (l : List α) (key : ℤ) :
    (∀ k : ℕ, (hk : k < l.length) → pyGet l k = .ok l[k]) ∧ (∀ k : ℕ, (h1 : 1 ≤ k) → (hk : k ≤ l.length) → pyGet l (-k) = .ok (l[l.length - k]'(by omega))) ∧
    (pyGet l key = .error .indexError ↔ key < -l.length ∨ (l.length : ℤ) ≤ key) := by
  refine ⟨fun k hk => ?_, fun k h1 hk => ?_, ?_⟩
  · unfold pyGet
    simp only [show ¬ ((k : ℤ) < 0) by omega, if_false, Int.toNat_natCast, List.getElem?_eq_getElem hk]
  · unfold pyGet
    simp only [show (-(k : ℤ) < 0) by omega, if_true, show ¬ (-(k : ℤ) + l.length < 0) by omega, if_false,
      show (-(k : ℤ) + l.length).toNat = l.length - k by omega, List.getElem?_eq_getElem (show l.length - k < l.length by omega)]
  · unfold pyGet
    by_cases hn : key < 0
    · simp only [hn, if_true]
      by_cases h2 : key + l.length < 0
      · simp only [h2, if_true, true_iff]; left; omega
      · have h3 : (key + l.length).toNat < l.length := by omega
        simp only [h2, if_false, List.getElem?_eq_getElem h3]
        constructor
        · intro h; cases h
        · intro h; omega
    · simp only [hn, if_false]
      by_cases h2 : key.toNat < l.length
      · simp only [List.getElem?_eq_getElem h2]
        constructor
        · intro h; cases h
        · intro h; omega
      · rw [List.getElem?_eq_none (by omega)]
        simp only [true_iff]; right; omega

theorem pyGet_error {α : Type} (l : List α) (key : ℤ) (e : PyErr) (h : pyGet l key = .error e) : e = .indexError := by
  unfold pyGet at h
  generalize (if key < 0 then key + (l.length : ℤ) else key) = j at h
  simp only at h
  by_cases hj : j < 0
  · rw [if_pos hj] at h; cases h; rfl
  · rw [if_neg hj] at h
    cases hl : l[j.toNat]? <;> rw [hl] at h <;> cases h
    rfl

/-- **C115** Indexing a mono signal gives its samples, from the end for negative indices, and raises `IndexError` outside. -/
theorem C115_mono_index (m : Mono) (key : ℤ) :
    m.len = m.signal.length ∧ (∀ k : ℕ, (hk : k < m.signal.length) → m.getItem k = .ok m.signal[k]) ∧
    (∀ k : ℕ, (h1 : 1 ≤ k) → (hk : k ≤ m.signal.length) → m.getItem (-k) = .ok (m.signal[m.signal.length - k]'(by omega))) ∧
    (m.getItem key = .error .indexError ↔ key < -m.len ∨ (m.len : ℤ) ≤ key) :=
  ⟨rfl, pyGet_spec m.signal key⟩

/-- **C115** A slice of a mono signal from sample `a` up to, not including, sample `b`, both counted from the start or (negative) from the end; an end behind
the last sample gives what there is. -/
theorem C115_mono_slice (m : Mono) (a b : ℕ) :
    m.getSlice a b = (m.signal.take b).drop a ∧
    (a < m.signal.length → m.getSlice (a - m.len) b = (m.signal.take b).drop a) ∧
    (b < m.signal.length → m.getSlice a (b - m.len) = (m.signal.take b).drop a) ∧
    (a < m.signal.length → b < m.signal.length → m.getSlice (a - m.len) (b - m.len) = (m.signal.take b).drop a) ∧
    (m.signal.length ≤ b → m.getSlice a b = m.signal.drop a) := by
  have hnat := pySlice_nat m.signal a b
  have hneg : ∀ c : ℕ, c < m.signal.length → sliceBound m.signal.length ((c : ℤ) - m.len) = c := by
    intro c hc
    unfold sliceBound Mono.len
    rw [if_pos (by omega)]
    omega
  have hpos : ∀ c : ℕ, c < m.signal.length → sliceBound m.signal.length (c : ℤ) = c := by
    intro c hc
    unfold sliceBound
    rw [if_neg (by omega)]
    omega
  refine ⟨hnat, fun ha => ?_, fun hb => ?_, fun ha hb => ?_, fun hb => ?_⟩
  · rw [← hnat]; unfold Mono.getSlice pySlice; rw [hneg a ha, hpos a ha]
  · rw [← hnat]; unfold Mono.getSlice pySlice; rw [hneg b hb, hpos b hb]
  · rw [← hnat]; unfold Mono.getSlice pySlice; rw [hneg a ha, hneg b hb, hpos a ha, hpos b hb]
  · show pySlice _ _ _ = _
    rw [hnat, List.take_of_length_le hb]

/-- **C115** Indexing a multichannel signal gives its channels. -/
theorem C115_multi_index (m : Multi) (key : ℤ) :
    (∀ k : ℕ, (hk : k < m.channels.length) → m.getItem k = .ok m.channels[k]) ∧
    (∀ k : ℕ, (h1 : 1 ≤ k) → (hk : k ≤ m.channels.length) → m.getItem (-k) = .ok (m.channels[m.channels.length - k]'(by omega))) ∧
    (m.getItem key = .error .indexError ↔ key < -m.numChannels ∨ (m.numChannels : ℤ) ≤ key) :=
  pyGet_spec m.channels key

/-- **C115** Indexing an HRIR set gives the pair of responses of that direction. -/
theorem C115_hrirs_index (h : HRIRs) (he : h.left.rows.length = h.right.rows.length) (key : ℤ) : h.len = h.left.cols ∧
    (∀ k : ℕ, (hk : k < h.left.rows.length) → h.getItemInt k = .ok (h.left.rows[k], h.right.rows[k])) ∧
    (∀ k : ℕ, (h1 : 1 ≤ k) → (hk : k ≤ h.left.rows.length) →
      h.getItemInt (-k) = .ok (h.left.rows[h.left.rows.length - k]'(by omega), h.right.rows[h.left.rows.length - k]'(by omega))) ∧
    (h.getItemInt key = .error .indexError ↔ key < -(h.left.rows.length : ℤ) ∨ (h.left.rows.length : ℤ) ≤ key) := by
  obtain ⟨l1, l2, l3⟩ := pyGet_spec h.left.rows key
  obtain ⟨r1, r2, r3⟩ := pyGet_spec h.right.rows key
  refine ⟨rfl, fun k hk => ?_, fun k h1 hk => ?_, ?_⟩
  · unfold HRIRs.getItemInt
    rw [l1 k hk, r1 k (by omega)]; rfl
  · unfold HRIRs.getItemInt
    rw [l2 k h1 hk, r2 k h1 (by omega)]
    simp only [Except.bind, Except.map, he]
  · rw [← l3]
    unfold HRIRs.getItemInt
    cases hl : pyGet h.left.rows key with
    | error e => simp [Except.bind]
    | ok a =>
      cases hr : pyGet h.right.rows key with
      | error e =>
        exfalso
        have := pyGet_error _ _ _ hr
        rw [this, r3, ← he, ← l3, hl] at hr
        cases hr
      | ok b => simp [Except.bind, Except.map]

/-- `C115_hrirs_index`: two directions, three samples. -/
example : (HRIRs.mk ⟨3, [[1, 2, 3], [4, 5, 6]]⟩ ⟨3, [[7, 8, 9], [10, 11, 12]]⟩ [0, 1] [1, 1] 48000 2 3).getItemInt (-1) = .ok ([4, 5, 6], [10, 11, 12]) :=
  (C115_hrirs_index (HRIRs.mk ⟨3, [[1, 2, 3], [4, 5, 6]]⟩ ⟨3, [[7, 8, 9], [10, 11, 12]]⟩ [0, 1] [1, 1] 48000 2 3) rfl 0).2.2.1 1 le_rfl (by simp)

/-- A one-dimensional array passes `asarray_1d` with its data. -/
theorem asarray1d_vec (l : List ℝ) : ∃ s, asarray1d ⟨[l.length], l⟩ = .ok ⟨s, l⟩ := by
  by_cases h : l.length = 1
  · exact ⟨[1], by simp [asarray1d, NDArray.squeeze, h]⟩
  · exact ⟨[l.length], by simp [asarray1d, NDArray.squeeze, h]⟩

theorem mono_init_vec (l : List ℝ) (fs : ℝ) : Mono.init ⟨[l.length], l⟩ fs = .ok ⟨l, fs⟩ := by
  obtain ⟨s, hs⟩ := asarray1d_vec l
  unfold Mono.init
  rw [hs]; rfl

theorem mapM_mono_vec (ls : List (List ℝ)) (fs : ℝ) :
    (ls.map fun r => (⟨[r.length], r⟩ : NDArray ℝ)).mapM (fun s => Mono.init s fs) = .ok (ls.map fun l => (⟨l, fs⟩ : Mono)) := by
  induction ls with
  | nil => rfl
  | cons a as ih =>
    rw [List.map_cons, List.mapM_cons, mono_init_vec, ih]; rfl

/-- **C115** A multichannel signal is built from one-dimensional arrays: channel `k` holds array `k`, all at the common rate; its length is that of the first
channel (`IndexError` without channels), and `signals` returns the arrays, with a `ValueError` exactly if their lengths differ. -/
theorem C115_construct (ls : List (List ℝ)) (fs : ℝ) :
    ∃ m, Multi.construct (some (ls.map fun r => ⟨[r.length], r⟩)) (some fs) = .ok m ∧ m.numChannels = ls.length ∧ m.channelCount = ls.length ∧ m.fs = fs ∧
    (∀ k : ℕ, (hk : k < ls.length) → m.getItem k = .ok ⟨ls[k], fs⟩) ∧
    m.len = (match ls with | [] => .error .indexError | l :: _ => .ok l.length) ∧
    ((∀ l ∈ ls, ∀ l' ∈ ls, l.length = l'.length) → m.getSignals = .ok ls) ∧
    ((∃ l ∈ ls, ∃ l' ∈ ls, l.length ≠ l'.length) → m.getSignals = .error .valueError) := by
  refine ⟨⟨ls.map fun l => ⟨l, fs⟩, fs, ls.length⟩, ?_, by simp [Multi.numChannels], rfl, rfl, fun k hk => ?_, ?_, fun h => ?_, fun h => ?_⟩
  · show (Except.map _ (List.mapM _ _)) = _
    rw [mapM_mono_vec]
    simp [Except.map]
  · unfold Multi.getItem
    rw [(pyGet_spec _ 0).1 k (by simpa using hk)]
    simp
  · cases ls <;> rfl
  · unfold Multi.getSignals
    rw [if_pos]
    · simp [Function.comp_def]
    · simpa using h
  · unfold Multi.getSignals
    rw [if_neg]
    obtain ⟨l, hl, l', hl', hne⟩ := h
    intro hall
    exact hne (hall ⟨l, fs⟩ (List.mem_map.2 ⟨l, hl, rfl⟩) ⟨l', fs⟩ (List.mem_map.2 ⟨l', hl', rfl⟩))

/-- **C115** What the constructor of a multichannel signal rejects: a container that is no list or tuple, a missing rate, an array that is not
one-dimensional. -/
theorem C115_construct_errors (ls : List (NDArray ℝ)) (fs : Option ℝ) :
    Multi.construct none fs = .error .assertionError ∧ Multi.construct (some ls) none = .error .valueError ∧
    ∀ f, (∃ a ∈ ls, 1 < (a.shape.filter fun d => d ≠ 1).length) → Multi.construct (some ls) (some f) = .error .valueError := by
  refine ⟨rfl, rfl, fun f h => ?_⟩
  have key : ∀ ls : List (NDArray ℝ), (∃ a ∈ ls, 1 < (a.shape.filter fun d => d ≠ 1).length) → ls.mapM (fun s => Mono.init s f) = .error .valueError := by
    intro ls
    induction ls with
    | nil => rintro ⟨a, ha, _⟩; cases ha
    | cons b bs ih =>
      intro h
      rw [List.mapM_cons]
      by_cases hb : 1 < (b.shape.filter fun d => d ≠ 1).length
      · have : Mono.init b f = .error .valueError := by
          unfold Mono.init asarray1d NDArray.squeeze
          simp only
          rw [if_neg (by omega), if_pos hb]; rfl
        rw [this]; rfl
      · have hbs := ih (by
          obtain ⟨a, ha, h1⟩ := h
          rcases List.mem_cons.1 ha with rfl | ha
          · exact absurd h1 hb
          · exact ⟨a, ha, h1⟩)
        have : ∃ v, Mono.init b f = .ok v := by
          unfold Mono.init asarray1d NDArray.squeeze
          simp only
          split
          · exact ⟨_, rfl⟩
          · exact ⟨_, rfl⟩
        obtain ⟨v, hv⟩ := this
        rw [hv, hbs]; rfl
  show Except.map _ (List.mapM _ ls) = _
  rw [key ls h]; rfl

/-- **C115** Assigning `signal` of a mono signal replaces its samples and keeps the rate, or raises and changes nothing. `signal` of a multichannel signal
does not exist. -/
theorem C115_signal (m : Mono) (m' : Multi) (l : List ℝ) (a : NDArray ℝ) : m.setSignal ⟨[l.length], l⟩ = ({ signal := l, fs := m.fs }, none) ∧
    (1 < (a.shape.filter fun d => d ≠ 1).length → m.setSignal a = (m, some .valueError)) ∧ m'.signal = .error .attributeError := by
  refine ⟨?_, fun h => ?_, rfl⟩
  · obtain ⟨s, hs⟩ := asarray1d_vec l
    unfold Mono.setSignal
    rw [hs]
  · unfold Mono.setSignal asarray1d NDArray.squeeze
    simp only
    rw [if_neg (by omega), if_pos h]

/-- **C115** Resampling a mono signal: nothing happens at the same rate; otherwise the new rate is set, and the length is that of the resampler. -/
theorem C115_resample (rs : Resampler) (m : Mono) (fsNew : ℝ) :
    m.resample rs m.fs = .ok m ∧
    (∀ r, m.resample rs fsNew = .ok r → r.fs = fsNew ∧ (fsNew ≠ m.fs → r.len = rs.len m.fs fsNew m.len ∧ 1 ≤ r.len)) ∧
    (m.resample rs fsNew = .error .valueError ↔ fsNew ≠ m.fs ∧ rs.len m.fs fsNew m.len = 0) := by
  refine ⟨by simp [Mono.resample], fun r hr => ?_, ?_⟩
  · unfold Mono.resample at hr
    split at hr
    · rename_i h
      cases hr
      exact ⟨h.symm, fun hne => absurd h hne⟩
    · split at hr
      · cases hr
      · rename_i _ h2
        cases hr
        refine ⟨rfl, fun _ => ⟨rs.run_length _ _ _, ?_⟩⟩
        show 1 ≤ (rs.run m.fs fsNew m.signal).length
        rw [rs.run_length]; omega
  · unfold Mono.resample Mono.len
    split
    · rename_i h
      simp [h]
    · rename_i h
      split
      · rename_i h2
        simp only [true_iff]
        exact ⟨h, by omega⟩
      · rename_i h2
        constructor
        · intro h; cases h
        · rintro ⟨_, h3⟩; omega

/-- **C115** `AmbiBSignal.sh_to_b` of four equally long, non-empty ACN channels: the object has the rate of the input, and W, X, Y, Z are the scaled channels
0, 3, 1, 2, which are also its channels in that order. -/
theorem C115_sh_to_b (m : Multi) (w y z x : List ℝ) (fs₀ fs₁ fs₂ fs₃ : ℝ) (hm : m.channels = [⟨w, fs₀⟩, ⟨y, fs₁⟩, ⟨z, fs₂⟩, ⟨x, fs₃⟩]) (hw : 0 < w.length)
    (hy : y.length = w.length) (hz : z.length = w.length) (hx : x.length = w.length) :
    ∃ b, AmbiB.shToB (some m) = .ok b ∧ b.fs = m.fs ∧ b.W = w.map (√(4 * π) * ·) ∧ b.X = x.map (√(4 * π / 3) * ·) ∧ b.Y = y.map (√(4 * π / 3) * ·) ∧
      b.Z = z.map (√(4 * π / 3) * ·) ∧ b.getSignals = .ok [b.W, b.X, b.Y, b.Z] ∧ ∀ c ∈ b.channels, c.fs = m.fs := by
  have hg : m.getSignals = .ok [w, y, z, x] := by
    unfold Multi.getSignals
    rw [if_pos, hm]
    · rfl
    · rw [hm]
      intro c hc c' hc'
      simp only [List.mem_cons, List.not_mem_nil, or_false] at hc hc'
      rcases hc with rfl | rfl | rfl | rfl <;> rcases hc' with rfl | rfl | rfl | rfl <;> simp [hy, hz, hx]
  obtain ⟨B, hB, hBv⟩ := C13_channels w.length (fun i s => ([w, y, z, x].getD i []).getD s 0) none
  have hs3 : √(4 * π) / √3 = √(4 * π / 3) := (Real.sqrt_div (by positivity) 3).symm
  have row : ∀ (i : Fin 4) (l : List ℝ) (c : ℝ), l.length = w.length → (∀ s : Fin w.length, B i s = c * l.getD s 0) → List.ofFn (B i) = l.map (c * ·) := by
    intro i l c hl h
    apply List.ext_getElem
    · simp [hl]
    · intro n h1 h2
      have hn : n < w.length := by simpa using h1
      rw [List.getElem_ofFn, h ⟨n, hn⟩, List.getElem_map]
      simp [hl ▸ hn]
  have r0 := row 0 w (√(4 * π)) rfl (fun s => by rw [(hBv s).1]; simp)
  have r1 := row 1 x (√(4 * π / 3)) hx (fun s => by rw [(hBv s).2.1, hs3]; rfl)
  have r2 := row 2 y (√(4 * π / 3)) hy (fun s => by rw [(hBv s).2.2.1, hs3]; rfl)
  have r3 := row 3 z (√(4 * π / 3)) hz (fun s => by rw [(hBv s).2.2.2, hs3]; rfl)
  have hrows : shToBRows [w, y, z, x] = .ok [w.map (√(4 * π) * ·), x.map (√(4 * π / 3) * ·), y.map (√(4 * π / 3) * ·), z.map (√(4 * π / 3) * ·)] := by
    unfold shToBRows
    simp only
    rw [if_neg (by omega)]
    refine (congrArg (Except.map fun B : NpMat => List.ofFn fun i => List.ofFn (B.val i)) hB).trans ?_
    show Except.ok (List.ofFn fun i : Fin 4 => List.ofFn (B i)) = _
    simp only [List.ofFn_succ, List.ofFn_zero]
    rw [← r0, ← r1, ← r2, ← r3]; rfl
  refine ⟨⟨⟨[w.map (√(4 * π) * ·), x.map (√(4 * π / 3) * ·), y.map (√(4 * π / 3) * ·), z.map (√(4 * π / 3) * ·)].map fun l => ⟨l, m.fs⟩, m.fs, 4⟩,
    w.map (√(4 * π) * ·), x.map (√(4 * π / 3) * ·), y.map (√(4 * π / 3) * ·), z.map (√(4 * π / 3) * ·)⟩, ?_, rfl, rfl, rfl, rfl, rfl, ?_, ?_⟩
  · unfold AmbiB.shToB
    simp only
    rw [hg]
    show (shToBRows _).bind _ = _
    rw [hrows]
    show AmbiB.init _ _ = _
    unfold AmbiB.init Multi.init
    simp only
    rw [mapM_mono_vec]
    rfl
  · unfold Multi.getSignals
    rw [if_pos]
    · rfl
    · intro c hc c' hc'
      simp only [List.map_cons, List.map_nil, List.mem_cons, List.not_mem_nil, or_false] at hc hc'
      rcases hc with rfl | rfl | rfl | rfl <;> rcases hc' with rfl | rfl | rfl | rfl <;> simp [hy, hz, hx]
  · intro c hc
    simp only [List.map_cons, List.map_nil, List.mem_cons, List.not_mem_nil, or_false] at hc
    rcases hc with rfl | rfl | rfl | rfl <;> rfl

/-- **C115** What `sh_to_b` rejects: anything but a `MultiSignal`, other than four channels (also higher orders), unequal lengths, empty channels. -/
theorem C115_sh_to_b_errors (m : Multi) : AmbiB.shToB none = .error .assertionError ∧
    (m.numChannels ≠ 4 ∨ (∃ c ∈ m.channels, ∃ c' ∈ m.channels, c.signal.length ≠ c'.signal.length) ∨ (∃ c ∈ m.channels, c.signal = []) →
      AmbiB.shToB (some m) = .error .valueError) := by
  refine ⟨rfl, fun h => ?_⟩
  unfold AmbiB.shToB Multi.getSignals
  simp only
  by_cases hall : ∀ c ∈ m.channels, ∀ c' ∈ m.channels, c.signal.length = c'.signal.length
  swap
  · rw [if_neg hall]; rfl
  rw [if_pos hall]
  suffices hr : shToBRows (m.channels.map Mono.signal) = .error .valueError by
    show (shToBRows _).bind _ = _
    rw [hr]; rfl
  have hnot : ¬ ∃ c ∈ m.channels, ∃ c' ∈ m.channels, c.signal.length ≠ c'.signal.length := by
    rintro ⟨c, hc, c', hc', hne⟩; exact hne (hall c hc c' hc')
  unfold shToBRows
  cases hch : m.channels with
  | nil => rfl
  | cons c cs =>
    simp only [List.map_cons]
    by_cases h0 : c.signal.length = 0
    · rw [if_pos h0]
    rw [if_neg h0]
    rcases h with h | h | h
    · have h4 : (c.signal :: cs.map Mono.signal).length ≠ 4 := by
        unfold Multi.numChannels at h
        rw [hch] at h
        simpa using h
      refine (congrArg (Except.map fun B : NpMat => List.ofFn fun i => List.ofFn (B.val i)) ((C13_errors _ _ _ none).2 ?_)).trans rfl
      simpa using h4
    · exact absurd h hnot
    · obtain ⟨c', hc', he⟩ := h
      have := hall c (by rw [hch]; exact List.mem_cons_self) c' hc'
      rw [he] at this
      exact absurd this h0

example : ∃ b, AmbiB.shToB (some ⟨[⟨[1, 2], 48000⟩, ⟨[0, 1], 48000⟩, ⟨[3, 4], 48000⟩, ⟨[5, 6], 48000⟩], 48000, 4⟩) = .ok b ∧
    b.X = [√(4 * π / 3) * 5, √(4 * π / 3) * 6] := by
  obtain ⟨b, hb, _, _, hX, _⟩ := C115_sh_to_b ⟨[⟨[1, 2], 48000⟩, ⟨[0, 1], 48000⟩, ⟨[3, 4], 48000⟩, ⟨[5, 6], 48000⟩], 48000, 4⟩ [1, 2] [0, 1] [3, 4] [5, 6]
    48000 48000 48000 48000 rfl (by simp) rfl rfl rfl
  exact ⟨b, hb, by simpa using hX⟩

/-- The lookup of `nearest_hrirs` is `__getitem__` with a non-negative integer. -/
theorem getItem_int (h : HRIRs) (k : ℕ) : h.getItem k = h.getItemInt k := by
  have hp : ∀ l : List (List ℝ), pyGet l (k : ℤ) = match l[k]? with | some x => .ok x | none => .error .indexError := by
    intro l
    unfold pyGet
    dsimp only
    rw [if_neg (by omega), if_neg (by omega), Int.toNat_natCast]
    rcases l[k]? with _ | x <;> rfl
  unfold HRIRs.getItem HRIRs.getItemInt
  rw [hp, hp]
  rcases h.left.rows[k]? with _ | l
  · rfl
  · rcases h.right.rows[k]? with _ | r <;> rfl

end Verif.Props
