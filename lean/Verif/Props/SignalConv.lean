import Verif.Props.MultiSignal

/-!
C105 (convolving signals: `MonoSignal.conv`, `MultiSignal.conv`) and C106 (stereo downmix of a B-format signal).
-/

namespace Verif.Sig
open Finset Verif.Utils

/-- Sample `n` of the linear convolution: the sum of `x[i]*h[j]` over all `i`, `j` with `i + j = n`. -/
noncomputable def linConv (x h : List ℝ) (n : ℕ) : ℝ :=
  ∑ i : Fin x.length, ∑ j : Fin h.length, if (i : ℕ) + j = n then x[i] * h[j] else 0

theorem convAt_eq_linConv (x h : List ℝ) (n : ℕ) : convAt x h n = linConv x h n := by
  have hx : x = List.ofFn (fun i : Fin x.length => x[i]) := by simp
  have hh : h = List.ofFn (fun i : Fin h.length => h[i]) := by simp
  conv_lhs => rw [hx, hh]
  rw [convAt_ofFn]
  refine Finset.sum_congr rfl fun s _ => ?_
  split
  · rename_i hs
    rw [Finset.sum_eq_single (⟨n - s, hs.2⟩ : Fin h.length)]
    · rw [if_pos (by simp only; omega)]
    · intro b _ hb
      rw [if_neg fun hc => hb (by ext; simp only; omega)]
    · simp
  · rename_i hs
    symm
    refine Finset.sum_eq_zero fun j _ => if_neg fun hc => hs ⟨by omega, ?_⟩
    have := j.2
    omega

theorem getD_in {x : List ℝ} {n : ℕ} (h : n < x.length) : x.getD n 0 = x[n] := by
  rw [List.getD_eq_getElem?_getD, List.getElem?_eq_getElem h]; rfl

/-- The first sample of the full convolution that each mode keeps. -/
def convStart : ConvMode → ℕ → ℕ → ℕ
  | .full, _, _ => 0
  | .same, _, b => (b - 1) / 2
  | .valid, a, b => min a b - 1

/-- The number of samples each mode returns. -/
def convCount : ConvMode → ℕ → ℕ → ℕ
  | .full, a, b => a + b - 1
  | .same, a, _ => a
  | .valid, a, b => max a b - min a b + 1

theorem convKeep_spec (mode : ConvMode) (x h : List ℝ) (hx : x ≠ []) (hh : h ≠ []) :
    convKeep mode x h = (List.range (convCount mode x.length h.length)).map fun n => linConv x h (n + convStart mode x.length h.length) := by
  have h1 := List.length_pos_iff.2 hx
  have h2 := List.length_pos_iff.2 hh
  have hl : (convKeep mode x h).length = convCount mode x.length h.length := by
    cases mode
    · simp [convKeep, convCount, convFull_length]
    · simp only [convKeep, convCount, List.length_take, List.length_drop, convFull_length]; omega
    · simp only [convKeep, convCount, List.length_take, List.length_drop, convFull_length]; omega
  refine List.ext_getElem (by rw [hl]; simp) fun n hn hn' => ?_
  rw [hl] at hn
  rw [List.getElem_map, List.getElem_range, ← convAt_eq_linConv, ← convFull_getD]
  cases mode
  · simp only [convKeep, convStart, add_zero]
    rw [getD_in (by rw [convFull_length]; simpa [convCount] using hn)]
  · simp only [convKeep, convStart, List.getElem_take, List.getElem_drop, convCount] at hn ⊢
    rw [getD_in (by rw [convFull_length]; omega)]
    congr 1; omega
  · simp only [convKeep, convStart, List.getElem_take, List.getElem_drop, convCount] at hn ⊢
    rw [getD_in (by rw [convFull_length]; omega)]
    congr 1; omega

/-- **C105** `MonoSignal.conv(h, mode)` replaces the samples by their linear convolution with `h` and keeps the rate: all `len(x)+len(h)-1`
samples in mode `full`, the `len(x)` samples from `(len(h)-1)//2` on in mode `same`, and those of complete overlap in mode `valid`. -/
theorem C105_mono (m : Mono) (mode : ConvMode) (h r : NDArray ℝ) (hr : asarray1d h = .ok r) (hx : m.signal ≠ []) (hh : r.data ≠ []) :
    m.conv mode h = .ok { signal := (List.range (convCount mode m.signal.length r.data.length)).map (fun n =>
      linConv m.signal r.data (n + convStart mode m.signal.length r.data.length)), fs := m.fs } := by
  unfold Mono.conv
  rw [hr]
  change (convolve mode m.signal r.data).map _ = _
  unfold convolve
  rw [if_neg (by simp [hx, hh]), convKeep_spec mode _ _ hx hh]
  rfl

/-- **C105** An empty signal or an empty filter is rejected with `ValueError`, a filter that is not one-dimensional as `asarray_1d` does. -/
theorem C105_reject (m : Mono) (mode : ConvMode) (h : NDArray ℝ) :
    (∀ r, asarray1d h = .ok r → (m.signal = [] ∨ r.data = []) → m.conv mode h = .error .valueError) ∧
    ∀ e, asarray1d h = .error e → m.conv mode h = .error e := by
  constructor
  · intro r hr hc
    unfold Mono.conv
    rw [hr]
    change (convolve mode m.signal r.data).map _ = _
    unfold convolve
    rw [if_pos hc]
    rfl
  · intro e he
    unfold Mono.conv
    rw [he]
    rfl

theorem loop_each (f : ℕ → Mono → Py Mono) (g : ℕ → Mono → Mono) : ∀ (cs : List Mono) (i : ℕ) (_ : ∀ j c, cs[j]? = some c → f (i + j) c = .ok (g (i + j) c)),
    loopChannels f i cs = (cs.mapIdx fun j c => g (i + j) c, none) := by
  intro cs
  induction cs with
  | nil => intro i _; rfl
  | cons c cs ih =>
    intro i h
    have h0 := h 0 c rfl
    have ht := ih (i + 1) fun j d hj => by
      have := h (j + 1) d (by simpa using hj)
      rwa [show i + (j + 1) = i + 1 + j by omega] at this
    rw [add_zero] at h0
    simp only [loopChannels, h0, ht, List.mapIdx_cons, add_zero]
    congr 2
    refine congrArg₂ _ ?_ rfl
    funext j d
    rw [show i + 1 + j = i + (j + 1) by omega]

/-- **C105** `MultiSignal.conv(irs)` convolves the channels one by one with the filters in the same position; channels beyond the last filter keep
their samples, filters beyond the last channel are not used, rate and channel count stay. -/
theorem C105_multi (m : Multi) (mode : ConvMode) (irs : List (NDArray ℝ)) (hc : ∀ c ∈ m.channels, c.signal ≠ [])
    (hi : ∀ ir ∈ irs, ∃ r, asarray1d ir = .ok r ∧ r.data ≠ []) :
    ∃ m', m.conv mode irs = (m', none) ∧ m'.fs = m.fs ∧ m'.channelCount = m.channelCount ∧ m'.channels.length = m.channels.length ∧
      ∀ (i : ℕ) (c : Mono), m.channels[i]? = some c →
        (∀ ir, irs[i]? = some ir → ∃ c', c.conv mode ir = .ok c' ∧ m'.channels[i]? = some c') ∧
        (irs.length ≤ i → m'.channels[i]? = some c) := by
  classical
  have hok : ∀ (i : ℕ) (c : Mono), m.channels[i]? = some c → ∃ c', (match irs[i]? with | some h => c.conv mode h | none => .ok c) = .ok c' := by
    intro i c hic
    cases hir : irs[i]? with
    | none => exact ⟨c, rfl⟩
    | some ir =>
      obtain ⟨r, hr, hne⟩ := hi ir (List.mem_of_getElem? hir)
      exact ⟨_, C105_mono c mode ir r hr (hc c (List.mem_of_getElem? hic)) hne⟩
  let f : ℕ → Mono → Py Mono := fun i c => match irs[i]? with | some h => c.conv mode h | none => .ok c
  let g : ℕ → Mono → Mono := fun i c => match f i c with | .ok c' => c' | .error _ => c
  have hfg : ∀ (j : ℕ) (c : Mono), m.channels[j]? = some c → f (0 + j) c = .ok (g (0 + j) c) := by
    intro j c hj
    obtain ⟨c', hc'⟩ := hok j c hj
    rw [zero_add]
    have hf : f j c = .ok c' := hc'
    simp only [g, hf]
  have hl := loop_each f g m.channels 0 hfg
  refine ⟨{ m with channels := m.channels.mapIdx fun j c => g (0 + j) c }, ?_, rfl, rfl, by simp, ?_⟩
  · change m.loop f = _
    unfold Multi.loop
    rw [hl]
  intro i c hic
  have hget : (m.channels.mapIdx fun j c => g (0 + j) c)[i]? = some (g i c) := by
    rw [List.getElem?_mapIdx, hic]; simp
  have hf := hfg i c hic
  rw [zero_add] at hf
  constructor
  · intro ir hir
    refine ⟨g i c, ?_, hget⟩
    rw [← hf]
    simp only [f, hir]
  · intro hle
    rw [hget]
    simp only [f, List.getElem?_eq_none hle] at hf
    injection hf with hf
    rw [← hf]

/-- C105 on two channels and one filter: `[1, 2, 3] * [1, 0, -1]` in mode `same`. -/
example : ∃ m', Multi.conv ⟨[⟨[1, 2, 3], 2⟩, ⟨[5], 2⟩], 2, 2⟩ .same [⟨[3], [1, 0, -1]⟩] = (m', none) ∧
    m'.channels = [⟨[2, 2, -2], 2⟩, ⟨[5], 2⟩] := by
  have ha : asarray1d (⟨[3], [1, 0, -1]⟩ : NDArray ℝ) = .ok ⟨[3], [1, 0, -1]⟩ := by simp [asarray1d, NDArray.squeeze]
  obtain ⟨m', h1, -, -, h4, h5⟩ := C105_multi ⟨[⟨[1, 2, 3], 2⟩, ⟨[5], 2⟩], 2, 2⟩ .same [⟨[3], [1, 0, -1]⟩] (by simp)
    (by simp only [List.mem_singleton, forall_eq]; exact ⟨_, ha, by simp⟩)
  obtain ⟨c', hc, hm0⟩ := (h5 0 _ rfl).1 _ rfl
  have hm1 := (h5 1 _ rfl).2 (by simp)
  rw [C105_mono _ .same _ _ ha (by simp) (by simp)] at hc
  injection hc with hc
  refine ⟨m', h1, ?_⟩
  have e0 : c' = ⟨[2, 2, -2], 2⟩ := by
    rw [← hc]
    simp only [convCount, convStart, linConv, List.length_cons, List.length_nil, Mono.mk.injEq, and_true]
    norm_num [List.range_succ, Fin.sum_univ_succ]
  rw [e0] at hm0
  match hch : m'.channels, h4 with
  | [a, b], _ =>
    rw [hch] at hm0 hm1
    simp at hm0 hm1
    rw [hm0, hm1]

/-! ### C106 -/

/-- A plane wave in the horizontal plane, `(W, X, Y, Z)` with the given samples of the source, from azimuth `φ` (`W` not attenuated). -/
noncomputable def planeB (b : AmbiB) (x : List ℝ) (φ : ℝ) : AmbiB :=
  { b with W := x, X := x.map (Real.cos φ * ·), Y := x.map (Real.sin φ * ·), Z := x.map fun _ => 0 }

/-- **C106** `b_to_stereo` returns two virtual cardioid-like microphones: `L = W + (X+Y)/√2`, `R = W + (X-Y)/√2`, sample by sample. -/
theorem C106_samples (b : AmbiB) (hX : b.X.length = b.W.length) (hY : b.Y.length = b.W.length) :
    (bToStereo b).1.length = b.W.length ∧ (bToStereo b).2.length = b.W.length ∧
    ∀ n, (bToStereo b).1.getD n 0 = b.W.getD n 0 + (b.X.getD n 0 + b.Y.getD n 0) / √2 ∧
      (bToStereo b).2.getD n 0 = b.W.getD n 0 + (b.X.getD n 0 - b.Y.getD n 0) / √2 := by
  have l1 : (bToStereo b).1.length = b.W.length := by simp [bToStereo, hX, hY]
  have l2 : (bToStereo b).2.length = b.W.length := by simp [bToStereo, hX, hY]
  refine ⟨l1, l2, fun n => ?_⟩
  rcases lt_or_ge n b.W.length with hn | hn
  · rw [getD_in (by omega : n < (bToStereo b).1.length), getD_in (by omega : n < (bToStereo b).2.length), getD_in hn,
      getD_in (by omega : n < b.X.length), getD_in (by omega : n < b.Y.length)]
    simp [bToStereo]
  · rw [getD_out (by omega : (bToStereo b).1.length ≤ n), getD_out (by omega : (bToStereo b).2.length ≤ n), getD_out hn,
      getD_out (by omega : b.X.length ≤ n), getD_out (by omega : b.Y.length ≤ n)]
    simp

/-- **C106** Mirroring the sound field left to right (`Y → -Y`) swaps the two channels. -/
theorem C106_mirror (b : AmbiB) : bToStereo { b with Y := b.Y.map (- ·) } = (bToStereo b).swap := by
  have h1 : List.zipWith (fun x y => (x + y) / √2) b.X (b.Y.map (- ·)) = List.zipWith (fun x y => (x - y) / √2) b.X b.Y := by
    rw [List.zipWith_map_right]; rfl
  have h2 : List.zipWith (fun x y => (x - y) / √2) b.X (b.Y.map (- ·)) = List.zipWith (fun x y => (x + y) / √2) b.X b.Y := by
    rw [List.zipWith_map_right]
    congr 1
    funext x y
    rw [sub_neg_eq_add]
  simp only [bToStereo, h1, h2, Prod.swap]

/-- **C106** A horizontal plane wave from azimuth `φ` appears with gains `1 + cos(φ - 45°)` on the left and `1 + cos(φ + 45°)` on the right: the two
microphones look 45 degrees to the left and to the right. -/
theorem C106_pan (b : AmbiB) (x : List ℝ) (φ : ℝ) : bToStereo (planeB b x φ) =
    (x.map ((1 + Real.cos (φ - Real.pi / 4)) * ·), x.map ((1 + Real.cos (φ + Real.pi / 4)) * ·)) := by
  have hz : ∀ f : ℝ → ℝ → ℝ, List.zipWith (· + ·) x (List.zipWith f (x.map (Real.cos φ * ·)) (x.map (Real.sin φ * ·)))
      = x.map fun v => v + f (Real.cos φ * v) (Real.sin φ * v) := by
    intro f
    induction x with
    | nil => rfl
    | cons a l ih => simp only [List.map_cons, List.zipWith_cons_cons, ih]
  have h2 : (√2 : ℝ) ≠ 0 := by positivity
  have h3 : (√2 : ℝ) * √2 = 2 := Real.mul_self_sqrt (by norm_num)
  unfold bToStereo planeB
  simp only [hz, Real.cos_sub, Real.cos_add, Real.cos_pi_div_four, Real.sin_pi_div_four, Prod.mk.injEq]
  constructor
  · refine List.map_congr_left fun v _ => ?_
    field_simp
    linear_combination (-(v * (Real.cos φ + Real.sin φ))) * h3
  · refine List.map_congr_left fun v _ => ?_
    field_simp
    linear_combination (-(v * (Real.cos φ - Real.sin φ))) * h3

/-- C106: a source on the left at 45 degrees has twice its amplitude on the left and its amplitude on the right. -/
example (b : AmbiB) : bToStereo (planeB b [1, -3] (Real.pi / 4)) = ([2, -6], [1, -3]) := by
  rw [C106_pan]
  simp only [sub_self, Real.cos_zero, show Real.pi / 4 + Real.pi / 4 = Real.pi / 2 by ring, Real.cos_pi_div_two]
  norm_num

example (b : AmbiB) : (bToStereo { b with W := [1, 2], X := [3, 4], Y := [5, 6] }).2.length = 2 :=
  (C106_samples { b with W := [1, 2], X := [3, 4], Y := [5, 6] } rfl rfl).2.1

end Verif.Sig
