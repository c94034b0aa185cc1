import Mathlib.Tactic
import Verif.Proofs.Conv

/-! C47-C49: trimming, and the consistency of multichannel and B-format signals under every history of calls. -/

namespace Verif.Sig

open Verif.Utils

/-! ### C47: trimming -/

theorem pyInt_of_nonneg {x : ℝ} (h : 0 ≤ x) : pyInt x = (⌊x⌋₊ : ℤ) := by
  rw [pyInt, if_pos h, ← Int.natCast_floor_eq_floor h]

theorem pySlice_nat (l : List ℝ) (a b : ℕ) : pySlice l (a : ℤ) (b : ℤ) = (l.take b).drop a := by
  have h : ∀ k : ℕ, sliceBound l.length (k : ℤ) = min k l.length := by
    intro k
    rw [sliceBound, if_neg (by omega)]
    omega
  rw [pySlice, h, h, ← List.take_eq_take_min]
  rcases le_total a l.length with h1 | h1
  · rw [min_eq_left h1]
  · rw [min_eq_right h1, List.drop_eq_nil_of_le (by simp), List.drop_eq_nil_of_le (by simp; omega)]

theorem cut_nonneg {start stop fs : ℝ} (h0 : 0 ≤ start) (h1 : 0 ≤ stop) (hfs : 0 < fs) (x : List ℝ) :
    cut start stop fs x = (x.take ⌊stop * fs⌋₊).drop ⌊start * fs⌋₊ := by
  rw [cut, pyInt_of_nonneg (by positivity), pyInt_of_nonneg (by positivity), pySlice_nat]

/-- **C47** `trim(start, stop)` keeps exactly the samples from `int(start*fs)` up to `int(stop*fs)`, or to the end; the sampling rate stays. -/
theorem C47_trim (m : Mono) (start stop : ℝ) (hfs : 0 < m.fs) (h0 : 0 ≤ start) (h1 : 0 ≤ stop) (hs : start * m.fs < m.signal.length) :
    ∃ m', m.trim start (some stop) none = .ok m' ∧ m'.fs = m.fs ∧
      m'.signal.length = min ⌊stop * m.fs⌋₊ m.signal.length - ⌊start * m.fs⌋₊ ∧
      ∀ i < m'.signal.length, m'.signal[i]? = m.signal[⌊start * m.fs⌋₊ + i]? := by
  refine ⟨{ m with signal := cut start stop m.fs m.signal }, ?_, rfl, ?_, ?_⟩
  · rw [Mono.trim, if_pos (by rwa [lt_div_iff₀ hfs])]; rfl
  · simp only [cut_nonneg h0 h1 hfs, List.length_drop, List.length_take]
  · intro i hi
    simp only [cut_nonneg h0 h1 hfs, List.length_drop, List.length_take] at hi ⊢
    rw [List.getElem?_drop, List.getElem?_take, if_pos (by omega)]

/-- Five samples at 2 Hz, from 0.6 s to 2 s: samples 1, 2 and 3. -/
example : ∃ m', (Mono.mk [10, 11, 12, 13, 14] 2).trim 0.6 (some 2) none = .ok m' ∧ m'.signal.length = 3 ∧ m'.signal[0]? = some 11 := by
  obtain ⟨m', h, -, h2, h3⟩ := C47_trim (Mono.mk [10, 11, 12, 13, 14] 2) 0.6 2 (by norm_num) (by norm_num) (by norm_num) (by norm_num)
  have e1 : ⌊(0.6 : ℝ) * 2⌋₊ = 1 := by rw [Nat.floor_eq_iff (by norm_num)]; norm_num
  have e2 : ⌊(2 : ℝ) * 2⌋₊ = 4 := by rw [Nat.floor_eq_iff (by norm_num)]; norm_num
  simp only [e1, e2] at h2 h3
  have hl : m'.signal.length = 3 := by simpa using h2
  refine ⟨m', h, hl, ?_⟩
  rw [h3 0 (by omega)]
  rfl

/-- **C47** Negative times count from the end, as in Python indexing: a start `k` samples before the end keeps the last `k` samples. -/
theorem C47_negative_start (m : Mono) (start stop : ℝ) (k : ℕ) (hfs : 0 < m.fs) (hk : start * m.fs = -(k : ℝ)) (hk0 : 0 < k)
    (hkl : k ≤ m.signal.length) (hstop : (m.signal.length : ℝ) ≤ stop * m.fs) :
    m.trim start (some stop) none = .ok { m with signal := m.signal.drop (m.signal.length - k) } := by
  have hkr : (0 : ℝ) < k := by exact_mod_cast hk0
  rw [Mono.trim, if_pos (by rw [lt_div_iff₀ hfs, hk]; have : (0 : ℝ) ≤ m.signal.length := by positivity
                            linarith)]
  change Except.ok _ = _
  congr 2
  rw [cut, hk]
  have e1 : pyInt (-(k : ℝ)) = -(k : ℤ) := by
    rw [pyInt, if_neg (by linarith), show (-(k : ℝ)) = ((-(k : ℤ) : ℤ) : ℝ) by push_cast; rfl, Int.ceil_intCast]
  have hn : (0 : ℝ) ≤ stop * m.fs := le_trans (by positivity) hstop
  have e2 : m.signal.length ≤ ⌊stop * m.fs⌋₊ := Nat.le_floor hstop
  rw [e1, pyInt_of_nonneg hn, pySlice]
  have b1 : sliceBound m.signal.length (-(k : ℤ)) = m.signal.length - k := by
    rw [sliceBound, if_pos (by omega)]; omega
  have b2 : sliceBound m.signal.length (⌊stop * m.fs⌋₊ : ℤ) = m.signal.length := by
    rw [sliceBound, if_neg (by omega)]; omega
  rw [b1, b2, List.take_length]

example : (Mono.mk [10, 11, 12, 13] 2).trim (-1) (some 9) none = .ok (Mono.mk [12, 13] 2) :=
  C47_negative_start (Mono.mk [10, 11, 12, 13] 2) (-1) 9 2 (by norm_num) (by norm_num) (by norm_num) (by simp) (by norm_num)

/-- **C47** A start at or beyond the end is rejected, and only such a start is, whatever `stop` and `dur` are. -/
theorem C47_reject (m : Mono) (start : ℝ) (stop dur : Option ℝ) (hfs : 0 < m.fs) (hsd : stop ≠ none ∨ dur ≠ none) :
    (m.trim start stop dur = .error .assertionError ↔ (m.signal.length : ℝ) ≤ start * m.fs) ∧
    (start * m.fs < m.signal.length → ∃ m', m.trim start stop dur = .ok m') := by
  have key : start * m.fs < m.signal.length → ∃ m', m.trim start stop dur = .ok m' := by
    intro h
    rw [Mono.trim, if_pos (by rwa [lt_div_iff₀ hfs])]
    rcases stop with _ | s <;> rcases dur with _ | d
    · simp at hsd
    all_goals exact ⟨_, rfl⟩
  refine ⟨⟨fun h => ?_, fun h => ?_⟩, key⟩
  · by_contra hc
    obtain ⟨m', hm⟩ := key (not_le.1 hc)
    rw [hm] at h
    cases h
  · rw [Mono.trim, if_neg (by rw [lt_div_iff₀ hfs]; exact not_lt.2 h)]

/-- **C47** Without `stop` and without `dur` a start inside the signal raises `TypeError`. -/
theorem C47_no_end (m : Mono) (start : ℝ) (hfs : 0 < m.fs) (hs : start * m.fs < m.signal.length) : m.trim start none none = .error .typeError := by
  rw [Mono.trim, if_pos (by rwa [lt_div_iff₀ hfs])]
  rfl

example : (Mono.mk [10, 11, 12, 13] 2).trim 1 none none = .error .typeError := C47_no_end _ _ (by norm_num) (by norm_num)

example : (Mono.mk [10, 11, 12, 13] 2).trim 2 (some 9) none = .error .assertionError :=
  ((C47_reject (Mono.mk [10, 11, 12, 13] 2) 2 (some 9) none (by norm_num) (by simp)).1).2 (by norm_num)

/-- **C47** `dur` overrides `stop`: the samples from `int(start*fs)` up to `int((start+dur)*fs)` are kept for every value of `stop`. -/
theorem C47_dur (m : Mono) (start d : ℝ) (stop : Option ℝ) (hfs : 0 < m.fs) (h0 : 0 ≤ start) (h1 : 0 ≤ d) (hs : start * m.fs < m.signal.length) :
    m.trim start stop (some d) = .ok { m with signal := (m.signal.take ⌊(start + d) * m.fs⌋₊).drop ⌊start * m.fs⌋₊ } := by
  rw [Mono.trim, if_pos (by rwa [lt_div_iff₀ hfs])]
  change Except.ok _ = _
  rw [cut_nonneg h0 (by positivity) hfs]

example : (Mono.mk [10, 11, 12, 13] 1).trim 1 (some 1) (some 2) = .ok (Mono.mk [11, 12] 1) := by
  rw [C47_dur _ 1 2 _ (by norm_num) (by norm_num) (by norm_num) (by norm_num)]
  norm_num

/-- A sequence of `trim(start, stop)` calls on one object. -/
noncomputable def trims (m : Mono) (l : List (ℝ × ℝ)) : Py Mono := l.foldlM (fun m p => m.trim p.1 (some p.2) none) m

/-- The window `[lo, hi)` of original samples that a sequence of trims leaves, `none` when a start lies beyond the remaining signal. -/
noncomputable def window (fs : ℝ) : List (ℝ × ℝ) → ℕ × ℕ → Option (ℕ × ℕ)
  | [], w => some w
  | p :: ps, w =>
    if p.1 * fs < ((w.2 - w.1 : ℕ) : ℝ) then window fs ps (w.1 + ⌊p.1 * fs⌋₊, min w.2 (w.1 + ⌊p.2 * fs⌋₊)) else none

theorem window_spec (x : List ℝ) (fs : ℝ) (hfs : 0 < fs) (l : List (ℝ × ℝ)) (hl : ∀ p ∈ l, 0 ≤ p.1 ∧ 0 ≤ p.2) (lo hi : ℕ) (hh : hi ≤ x.length) :
    trims ⟨(x.take hi).drop lo, fs⟩ l
      = match window fs l (lo, hi) with
        | some w => .ok ⟨(x.take w.2).drop w.1, fs⟩
        | none => .error .assertionError := by
  induction l generalizing lo hi with
  | nil => rfl
  | cons p l ih =>
    have hp := hl p (by simp)
    have hlen : ((x.take hi).drop lo).length = hi - lo := by simp [hh]
    rw [trims, List.foldlM_cons, window]
    by_cases hc : p.1 * fs < ((hi - lo : ℕ) : ℝ)
    · rw [if_pos hc, Mono.trim]
      simp only [hlen]
      rw [if_pos (by rwa [lt_div_iff₀ hfs])]
      change trims ⟨cut p.1 p.2 fs ((x.take hi).drop lo), fs⟩ l = _
      rw [cut_nonneg hp.1 hp.2 hfs, List.take_drop, List.drop_drop, List.take_take, min_comm,
        show lo + ⌊p.2 * fs⌋₊ = lo + ⌊p.2 * fs⌋₊ from rfl]
      exact ih (fun q hq => hl q (List.mem_cons_of_mem _ hq)) _ _ (le_trans (min_le_left _ _) hh)
    · rw [if_neg hc, Mono.trim]
      simp only [hlen]
      rw [if_neg (by rwa [lt_div_iff₀ hfs])]
      rfl

/-- **C47** Every sequence of trims composes: it keeps one window of the original samples, obtained by adding up the starts and taking the earliest stop,
and raises exactly when one of the starts lies at or beyond the end of what is left. -/
theorem C47_sequence (x : List ℝ) (fs : ℝ) (hfs : 0 < fs) (l : List (ℝ × ℝ)) (hl : ∀ p ∈ l, 0 ≤ p.1 ∧ 0 ≤ p.2) :
    trims ⟨x, fs⟩ l
      = match window fs l (0, x.length) with
        | some w => .ok ⟨(x.take w.2).drop w.1, fs⟩
        | none => .error .assertionError := by
  have := window_spec x fs hfs l hl 0 x.length le_rfl
  rwa [List.take_length, List.drop_zero] at this

/-- `C47_sequence`: three calls. -/
example : trims ⟨[10, 11, 12, 13, 14, 15], 1⟩ [(1, 5), (0, 3), (1, 9)] = match window 1 [(1, 5), (0, 3), (1, 9)] (0, 6) with
    | some w => .ok ⟨([10, 11, 12, 13, 14, 15].take w.2).drop w.1, 1⟩
    | none => .error .assertionError :=
  C47_sequence _ 1 one_pos _ (by intro p hp; fin_cases hp <;> norm_num)

/-- **C47** Two trims are one: start `int(a*fs) + int(c*fs)`, stop the earlier of `int(b*fs)` and `int(a*fs) + int(d*fs)`. -/
theorem C47_compose (x : List ℝ) (fs a b c d : ℝ) (hfs : 0 < fs) (ha : 0 ≤ a) (hb : 0 ≤ b) (hc : 0 ≤ c) (hd : 0 ≤ d) (h1 : a * fs < x.length)
    (h2 : c * fs < ((min x.length ⌊b * fs⌋₊ - ⌊a * fs⌋₊ : ℕ) : ℝ)) :
    trims ⟨x, fs⟩ [(a, b), (c, d)]
      = .ok ⟨(x.take (min (min x.length ⌊b * fs⌋₊) (⌊a * fs⌋₊ + ⌊d * fs⌋₊))).drop (⌊a * fs⌋₊ + ⌊c * fs⌋₊), fs⟩ := by
  rw [C47_sequence x fs hfs _ (by simp [ha, hb, hc, hd])]
  simp [window, h1, h2]

example : trims ⟨[10, 11, 12, 13, 14, 15], 1⟩ [(1, 5), (1, 3)] = .ok ⟨[12, 13], 1⟩ := by
  rw [C47_compose _ _ _ _ _ _ (by norm_num) (by norm_num) (by norm_num) (by norm_num) (by norm_num) (by norm_num) (by norm_num)]
  norm_num

theorem loopChannels_ok (g : Mono → Mono) (cs : List Mono) (i : ℕ) :
    loopChannels (fun _ c => .ok (g c)) i cs = (cs.map g, none) := by
  induction cs generalizing i with
  | nil => rfl
  | cons c cs ih => simp [loopChannels, ih]

/-- **C47** `MultiSignal.trim` does to every channel what `MonoSignal.trim` does to one, when the channels carry the sampling rate of the object, as
after construction; a start at or beyond the end of the first channel is rejected and nothing changes. -/
theorem C47_multi (m : Multi) (c0 : Mono) (cs : List Mono) (hm : m.channels = c0 :: cs) (start stop : ℝ) (hfs : 0 < m.fs)
    (hc : ∀ c ∈ m.channels, c.fs = m.fs) (h0 : 0 ≤ start) (h1 : 0 ≤ stop) :
    (start * m.fs < c0.signal.length → m.trim start (some stop) none
      = ({ m with channels := m.channels.map fun c => { c with signal := (c.signal.take ⌊stop * m.fs⌋₊).drop ⌊start * m.fs⌋₊ } }, none)) ∧
    ((c0.signal.length : ℝ) ≤ start * m.fs → m.trim start (some stop) none = (m, some .assertionError)) := by
  have hl : m.len = .ok c0.signal.length := by rw [Multi.len, hm]
  constructor
  · intro hs
    simp only [Multi.trim, hl]
    rw [if_pos (by rwa [lt_div_iff₀ hfs])]
    simp only [trimStop, Multi.loop]
    rw [loopChannels_ok (fun c => { c with signal := cut start stop c.fs c.signal })]
    congr 2
    refine List.map_congr_left fun c hcm => ?_
    simp only [hc c hcm, cut_nonneg h0 h1 hfs]
  · intro hs
    simp only [Multi.trim, hl]
    rw [if_neg (by rw [lt_div_iff₀ hfs]; exact not_lt.2 hs)]

/-- A stereo signal. -/
def stereo : Multi := { channels := [⟨[1, 2, 3], 1⟩, ⟨[4, 5, 6], 1⟩], fs := 1, channelCount := 2 }

example : stereo.trim 1 (some 3) none = ({ stereo with channels := [⟨[2, 3], 1⟩, ⟨[5, 6], 1⟩] }, none) := by
  rw [(C47_multi stereo _ _ rfl 1 3 (by norm_num [stereo]) (by simp [stereo]) (by norm_num) (by norm_num)).1 (by norm_num [stereo])]
  norm_num [stereo]

end Verif.Sig
