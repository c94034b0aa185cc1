import Verif.Props.Procrustes
import Verif.Props.Beamformers
import Verif.Props.MaxREThreshold
import Verif.Props.SignalConv
import Verif.Props.Binaural
import Verif.Props.SignalBasics
import Verif.Proofs.Octahedron
import Verif.Props.Vbap

/-! How loud outputs can become: peaks of encoded, decoded, panned, beamformed and filtered signals: C165. -/

namespace Verif.Props
open Sph Decoder Parsa Verif.Sig Utils Matrix Real

theorem shVec_dot_le (N : ℕ) (a1 z1 a2 z2 : ℝ) (h1 : z1 ∈ Set.Icc 0 π) (h2 : z2 ∈ Set.Icc 0 π) :
    |∑ q, shVec N a1 z1 q * shVec N a2 z2 q| ≤ ((N : ℝ) + 1) ^ 2 / (4 * π) := by
  have e1 := C18_row_norm N a1 z1 h1
  have e2 := C18_row_norm N a2 z2 h2
  unfold dotProduct at e1 e2
  have hn : (0 : ℝ) ≤ ((N : ℝ) + 1) ^ 2 / (4 * π) := by have := pi_pos; positivity
  refine abs_le_of_sq_le_sq ?_ hn
  have := Finset.sum_mul_sq_le_sq_mul_sq Finset.univ (shVec N a1 z1) (shVec N a2 z2)
  simp only [sq] at this ⊢
  rw [e1, e2] at this
  simpa [sq] using this

/-- The energy of the Ambisonic channels at one sample. -/
theorem encoded_energy {k S : ℕ} (N : ℕ) (sig : Matrix (Fin k) (Fin S) ℝ) (azi zen : Fin k → ℝ) (hz : ∀ i, zen i ∈ Set.Icc 0 π) (t : Fin S) :
    ∑ q, srcToSh sig azi zen N q t ^ 2 ≤ ((N : ℝ) + 1) ^ 2 / (4 * π) * (∑ i, |sig i t|) ^ 2 := by
  have e : ∀ q, srcToSh sig azi zen N q t = ∑ i, shVec N (azi i) (zen i) q * sig i t := fun q => Matrix.mul_apply
  have h1 : ∑ q, srcToSh sig azi zen N q t ^ 2 = ∑ i, ∑ j, sig i t * sig j t * ∑ q, shVec N (azi i) (zen i) q * shVec N (azi j) (zen j) q := by
    have e2 : ∀ q, srcToSh sig azi zen N q t ^ 2 = ∑ i, ∑ j, sig i t * sig j t * (shVec N (azi i) (zen i) q * shVec N (azi j) (zen j) q) := by
      intro q
      rw [e, sq, Finset.sum_mul_sum]
      exact Finset.sum_congr rfl fun i _ => Finset.sum_congr rfl fun j _ => by ring
    simp only [e2, Finset.mul_sum]
    rw [Finset.sum_comm]
    exact Finset.sum_congr rfl fun i _ => Finset.sum_comm
  rw [h1, sq (∑ i, |sig i t|), Finset.sum_mul_sum, Finset.mul_sum]
  refine Finset.sum_le_sum fun i _ => ?_
  rw [Finset.mul_sum]
  refine Finset.sum_le_sum fun j _ => (le_abs_self _).trans ?_
  rw [abs_mul, abs_mul, mul_comm]
  exact mul_le_mul_of_nonneg_right (shVec_dot_le N _ _ _ _ (hz i) (hz j)) (by positivity)

/-- **C165**: peaks of decoded scenes. With `epad` no loudspeaker ever exceeds the sum of the magnitudes of the source signals, nor does the root of the total energy; with `sad` no loudspeaker exceeds `(N + 1) / √L`
times that sum, and a source in the direction of a loudspeaker is played by it with exactly that gain. -/
theorem C165_decoders {L S k N : ℕ} (lstsq : Mat3 → Mat3) (svd : {m n : ℕ} → Matrix (Fin m) (Fin n) ℝ → Matrix (Fin m) (Fin m) ℝ × Matrix (Fin n) (Fin n) ℝ)
    (hsvd : ∀ {m n : ℕ} (A : Matrix (Fin m) (Fin n) ℝ), IsSvd A (svd A).1 (svd A).2) (h : Hull L)
    (sig : Matrix (Fin k) (Fin S) ℝ) (azi zen : Fin k → ℝ) (hz : ∀ i, zen i ∈ Set.Icc 0 π) :
    ((N + 1) ^ 2 ≤ L → ∃ out, epad lstsq svd (srcToSh sig azi zen N) h (some N) = .ok out ∧
      ∀ t, √(∑ l, out l t ^ 2) ≤ ∑ i, |sig i t| ∧ ∀ l, |out l t| ≤ ∑ i, |sig i t|) ∧
    ∃ out, sad lstsq (srcToSh sig azi zen N) h (some N) = .ok out ∧ ∀ t l, |out l t| ≤ (N + 1) / √L * ∑ i, |sig i t| ∧
      ((∀ i, azi i = (dirOf (h.points l)).1 ∧ zen i = (dirOf (h.points l)).2) → out l t = (N + 1) / √L * ∑ i, sig i t) := by
  have hs0 : ∀ t, 0 ≤ ∑ i, |sig i t| := fun t => Finset.sum_nonneg fun i _ => abs_nonneg _
  have hpi := pi_pos
  refine ⟨fun hL => ?_, ?_⟩
  · obtain ⟨out, ho, he⟩ := C42_energy lstsq svd hsvd (srcToSh sig azi zen N) h (some N) N rfl hL le_rfl
    have hb : ∀ t, ∑ l, out l t ^ 2 ≤ (∑ i, |sig i t|) ^ 2 := by
      intro t
      rw [he t]
      have h1 := mul_le_mul_of_nonneg_left (encoded_energy N sig azi zen hz t) (show 0 ≤ 4 * π / ((N : ℝ) + 1) ^ 2 by positivity)
      refine h1.trans (le_of_eq ?_)
      have : ((N : ℝ) + 1) ≠ 0 := by positivity
      field_simp
    refine ⟨out, ho, fun t => ⟨Real.sqrt_le_iff.2 ⟨hs0 t, hb t⟩, fun l => ?_⟩⟩
    refine abs_le_of_sq_le_sq (le_trans ?_ (hb t)) (hs0 t)
    exact Finset.single_le_sum (f := fun l => out l t ^ 2) (fun l _ => sq_nonneg _) (Finset.mem_univ l)
  · refine ⟨_, (sad_eq lstsq _ h (some N) N rfl).trans (applyTruncated_ok _ _ le_rfl), fun t l => ?_⟩
    have hL : (0 : ℝ) < L := by exact_mod_cast (Fin.pos l)
    have hout : ((√(4 * π / L) • (√(4 * π / ((N : ℝ) + 1) ^ 2) • shAt N h.points)) * (srcToSh sig azi zen N).submatrix (Fin.castLE le_rfl) id) l t =
        ∑ i, (4 * π / ((N + 1) * √L) * ∑ q, shVec N (dirOf (h.points l)).1 (dirOf (h.points l)).2 q * shVec N (azi i) (zen i) q) * sig i t := by
      rw [Matrix.mul_apply]
      have e : ∀ q, srcToSh sig azi zen N q t = ∑ i, shVec N (azi i) (zen i) q * sig i t := fun q => Matrix.mul_apply
      have hc : √(4 * π / L) * √(4 * π / ((N : ℝ) + 1) ^ 2) = 4 * π / ((N + 1) * √L) := by
        rw [Real.sqrt_div (by positivity), Real.sqrt_div (by positivity), Real.sqrt_sq (by positivity), div_mul_div_comm, Real.mul_self_sqrt (by positivity), mul_comm (√(L : ℝ))]
      rw [← hc]
      simp only [Matrix.smul_apply, smul_eq_mul, Matrix.submatrix_apply, id, Finset.mul_sum, Finset.sum_mul]
      rw [Finset.sum_comm]
      refine Finset.sum_congr rfl fun q _ => ?_
      have e' : srcToSh sig azi zen N (Fin.castLE le_rfl q) t = ∑ i, shVec N (azi i) (zen i) q * sig i t := e q
      rw [e', Finset.mul_sum]
      refine Finset.sum_congr rfl fun i _ => ?_
      change √(4 * π / L) * (√(4 * π / ((N : ℝ) + 1) ^ 2) * shVec N (dirOf (h.points l)).1 (dirOf (h.points l)).2 q) * _ = _
      ring
    have hg : 4 * π / ((N + 1) * √(L : ℝ)) * (((N : ℝ) + 1) ^ 2 / (4 * π)) = (N + 1) / √L := by
      have : √(L : ℝ) ≠ 0 := (Real.sqrt_pos.2 hL).ne'
      have : ((N : ℝ) + 1) ≠ 0 := by positivity
      field_simp
    rw [hout]
    refine ⟨?_, fun hd => ?_⟩
    · rw [Finset.mul_sum]
      refine (Finset.abs_sum_le_sum_abs _ _).trans (Finset.sum_le_sum fun i _ => ?_)
      rw [abs_mul, ← hg, abs_mul, abs_of_nonneg (show 0 ≤ 4 * π / (((N : ℝ) + 1) * √L) by positivity)]
      refine mul_le_mul_of_nonneg_right (mul_le_mul_of_nonneg_left ?_ (by positivity)) (abs_nonneg _)
      exact shVec_dot_le N _ _ _ _ (dirOf_zenith (h.points l)) (hz i)
    · rw [Finset.mul_sum]
      refine Finset.sum_congr rfl fun i _ => ?_
      rw [(hd i).1, (hd i).2]
      have e1 := C18_row_norm N (dirOf (h.points l)).1 _ (dirOf_zenith (h.points l))
      unfold dotProduct at e1
      rw [e1, hg]

/-- `C165_decoders`: two sources on the octahedron at order 1. -/
example (lstsq : Mat3 → Mat3) (s : Matrix (Fin 2) (Fin 3) ℝ) : ∃ out, sad lstsq (srcToSh s ![0, 1] ![π / 2, 1] 1) Oct.hull (some 1) = .ok out ∧
    ∀ t l, |out l t| ≤ (((1 : ℕ) : ℝ) + 1) / √((6 : ℕ) : ℝ) * ∑ i, |s i t| := by
  choose U V h using fun (m n : ℕ) (A : Matrix (Fin m) (Fin n) ℝ) => exists_svd A
  obtain ⟨out, h1, h2⟩ := (C165_decoders (N := 1) lstsq (fun {m n} A => (U m n A, V m n A)) (fun A => h _ _ A) Oct.hull s ![0, 1] ![π / 2, 1] (by
    have := pi_gt_three
    intro i; fin_cases i
    · exact ⟨by simp; linarith, by simp; linarith⟩
    · exact ⟨by simp, by simp; linarith⟩)).2
  exact ⟨out, h1, fun t l => (h2 t l).1⟩

example : (1 + 1) ^ 2 ≤ 6 := by norm_num

theorem evalLegendre_abs_le (n : ℕ) (x : ℝ) (hx : |x| ≤ 1) : |evalLegendre n x| ≤ 1 := by
  refine abs_le.2 ⟨?_, evalLegendre_le_one n x hx⟩
  rw [abs_le] at hx
  have hc : cos (arccos x) = x := cos_arccos hx.1 hx.2
  have h0 : (0 : ℝ) ∈ Set.Icc 0 π := ⟨le_refl _, pi_pos.le⟩
  have ha : arccos x ∈ Set.Icc 0 π := ⟨arccos_nonneg x, arccos_le_pi x⟩
  have e := C18_addition n 0 0 0 (arccos x) h0 ha
  have e1 := C18_addition n 0 0 0 0 h0 h0
  have e2 := C18_addition n 0 (arccos x) 0 (arccos x) ha ha
  have hd : ∀ z1 z2 : ℝ, cos (Utils.angleBetween (dirVec 0 z1) (dirVec 0 z2)) = sin z1 * sin z2 + cos z1 * cos z2 := by
    intro z1 z2; rw [cos_angleBetween]; simp [dirVec, dotProduct, Fin.sum_univ_three]
  rw [hd] at e e1 e2
  have s1 : sin (arccos x) * sin (arccos x) + cos (arccos x) * cos (arccos x) = 1 := by
    have := sin_sq_add_cos_sq (arccos x); nlinarith
  rw [s1, evalLegendre_one] at e2
  simp only [sin_zero, cos_zero, zero_mul, one_mul, zero_add, mul_one, evalLegendre_one, hc] at e e1
  have hle : ∑ m ∈ Finset.Icc (-(n : ℤ)) n, -((realSH n m 0 0 * realSH n m 0 0
        + realSH n m 0 (arccos x) * realSH n m 0 (arccos x)) / 2)
      ≤ ∑ m ∈ Finset.Icc (-(n : ℤ)) n, realSH n m 0 0 * realSH n m 0 (arccos x) := by
    refine Finset.sum_le_sum fun m _ => ?_
    nlinarith [sq_nonneg (realSH n m 0 0 + realSH n m 0 (arccos x))]
  rw [Finset.sum_neg_distrib, ← Finset.sum_div, Finset.sum_add_distrib, e, e1, e2] at hle
  have hp : 0 < (2 * (n : ℝ) + 1) / (4 * π) := by positivity
  have : (2 * (n : ℝ) + 1) / (4 * π) * (-1) ≤ (2 * (n : ℝ) + 1) / (4 * π) * evalLegendre n x := by linarith
  exact le_of_mul_le_mul_left this hp

theorem known_nonneg (s : List Char) (hs : KnownPattern s) (N : ℕ) (hN : N ≤ 1224) :
    ∃ c, patternWeights (.name s) N = .ok c ∧ c.length = N + 1 ∧ steeringGain c = 1 ∧ ∀ w ∈ c, 0 ≤ w := by
  have hpi := pi_pos
  unfold patternWeights
  by_cases h1 : s.map Char.toLower = "hypercardioid".toList ∨ s.map Char.toLower = "max_di".toList
  · refine ⟨hypercardioidWeights N, by simp only [if_pos h1], by simp [hypercardioidWeights], C16_hypercardioid N, fun w hw => ?_⟩
    rw [List.eq_of_mem_replicate hw]; positivity
  by_cases h2 : s.map Char.toLower = "cardioid".toList ∨ s.map Char.toLower = "inphase".toList
  · refine ⟨cardioidWeights N, by simp only [if_neg h1, if_pos h2], by simp [cardioidWeights], C16_cardioid N, fun w hw => ?_⟩
    obtain ⟨x, hx, rfl⟩ := List.mem_map.1 hw
    obtain ⟨n, -, rfl⟩ := List.mem_map.1 hx
    positivity
  have h3 : s.map Char.toLower = "max_re".toList ∨ s.map Char.toLower = "maxre".toList := by
    unfold KnownPattern at hs
    simp only [List.map_cons, List.map_nil, List.mem_cons, List.not_mem_nil, or_false] at hs
    tauto
  obtain ⟨w, hw, hl, hg⟩ := C16_maxre N
  refine ⟨w, by simp only [if_neg h1, if_neg h2, if_pos h3]; exact hw, hl, hg, ?_⟩
  have hpos := (C111_positive_iff N).1.2 hN
  unfold maxreModalWeights unitAmp at hw
  simp only [if_true] at hw
  obtain ⟨a, ha⟩ : ∃ a, bandlimitedDirac N 0 (some (maxREWeights N)) = .ok a := ((C18_weights N 0 _).1).2 (C111_decreasing N).1
  rw [ha] at hw
  have hw' : (maxREWeights N).map (· / a) = w := Except.ok.inj hw
  have ha0 : 0 ≤ a := by
    unfold bandlimitedDirac at ha
    simp only [Option.getD_some] at ha
    rw [if_pos (C111_decreasing N).1] at ha
    rw [← Except.ok.inj ha]
    refine Finset.sum_nonneg fun n hn => ?_
    rw [cos_zero, evalLegendre_one, mul_one]
    have hlt : n < (maxREWeights N).length := by rw [(C111_decreasing N).1]; exact Finset.mem_range.1 hn
    rw [List.getD_eq_getElem _ _ hlt]
    have := hpos _ (List.getElem_mem hlt)
    positivity
  intro v hv
  rw [← hw'] at hv
  obtain ⟨u, hu, rfl⟩ := List.mem_map.1 hv
  exact div_nonneg (hpos u hu).le ha0

/-- **C165**: a beam whose pattern has no negative weights and unit response in its steering direction never amplifies. -/
theorem C165_beams {J K T : ℕ} (p : Pattern) (N : ℕ) (azi zen : Fin J → ℝ) (sAzi sZen : Fin K → ℝ) (s : Matrix (Fin K) (Fin T) ℝ) (hz : ∀ j, zen j ∈ Set.Icc 0 π) (hs : ∀ k, sZen k ∈ Set.Icc 0 π)
    (hp : (∃ name, p = .name name ∧ KnownPattern name ∧ N ≤ 1224) ∨ ∃ c, p = .weights c ∧ c.length = N + 1 ∧ steeringGain c = 1 ∧ ∀ w ∈ c, 0 ≤ w) :
    ∃ W y, shBeamformerFromPattern p N azi zen = .ok W ∧ shBeamform W (srcToSh s sAzi sZen N) = .ok y ∧ ∀ j t, |y j t| ≤ ∑ k, |s k t| := by
  obtain ⟨c, h1, h2, h3, h4⟩ : ∃ c, patternWeights p N = .ok c ∧ c.length = N + 1 ∧ steeringGain c = 1 ∧ ∀ w ∈ c, 0 ≤ w := by
    rcases hp with ⟨name, rfl, hk, hN⟩ | ⟨c, rfl, h2, h3, h4⟩
    · exact known_nonneg name hk N hN
    · exact ⟨c, rfl, h2, h3, h4⟩
  obtain ⟨W, y, e1, e2, e3⟩ := C68_plane_wave p N azi zen sAzi sZen s c h1 h2 hz hs
  refine ⟨W, y, e1, e2, fun j t => ?_⟩
  rw [e3]
  refine (Finset.abs_sum_le_sum_abs _ _).trans (Finset.sum_le_sum fun k _ => ?_)
  rw [abs_mul]
  refine mul_le_of_le_one_left (abs_nonneg _) ((Finset.abs_sum_le_sum_abs _ _).trans ?_)
  have hg : ∑ n ∈ Finset.range (N + 1), c.getD n 0 * (2 * n + 1) / (4 * π) = 1 := by
    refine Eq.trans ?_ h3
    unfold steeringGain
    rw [← h2, Finset.sum_range]
    refine Finset.sum_congr rfl fun n _ => ?_
    rw [List.getD_eq_getElem _ _ n.2]
    simp only [Fin.getElem_fin]
    ring
  refine le_trans ?_ (le_of_eq hg)
  refine Finset.sum_le_sum fun n hn => ?_
  have hc : 0 ≤ c.getD n 0 := by
    have : n < c.length := by rw [h2]; exact Finset.mem_range.1 hn
    rw [List.getD_eq_getElem _ _ this]; exact h4 _ (List.getElem_mem this)
  have hpi := pi_pos
  have hw : 0 ≤ c.getD n 0 * (2 * (n : ℝ) + 1) / (4 * π) := by positivity
  rw [abs_mul, abs_of_nonneg hw]
  exact mul_le_of_le_one_right hw (evalLegendre_abs_le n _ (abs_cos_le_one _))

/-- `C165_beams`: a cardioid of order 3. -/
example (s : Matrix (Fin 2) (Fin 3) ℝ) : ∃ W y, shBeamformerFromPattern (J := 1) (.name "Cardioid".toList) 3 (fun _ => 1) (fun _ => 1) = .ok W ∧
    shBeamform W (srcToSh s ![0, 1] ![1, 0] 3) = .ok y ∧ ∀ j t, |y j t| ≤ ∑ k, |s k t| := by
  have := pi_gt_three
  refine C165_beams _ 3 _ _ _ _ s (fun _ => ⟨by norm_num, by linarith⟩) ?_ (.inl ⟨_, rfl, ?_, by norm_num⟩)
  · intro i; fin_cases i
    · exact ⟨by simp, by simp; linarith⟩
    · exact ⟨by simp, by simp; linarith⟩
  · have e : "Cardioid".toList.map Char.toLower = "cardioid".toList := by decide
    unfold KnownPattern
    rw [e]; simp

/-- Convolution does not raise the peak by more than the sum of the magnitudes of the filter. -/
theorem convAt_le (x h : List ℝ) (P : ℝ) (hP : 0 ≤ P) (hx : ∀ v ∈ x, |v| ≤ P) (n : ℕ) : |convAt x h n| ≤ P * (h.map (|·|)).sum := by
  have hx' : ∀ k, |x.getD k 0| ≤ P := by
    intro k
    by_cases hk : k < x.length
    · rw [List.getD_eq_getElem _ _ hk]; exact hx _ (List.getElem_mem hk)
    · rw [List.getD_eq_default _ _ (not_lt.1 hk), abs_zero]; exact hP
  have hs : ∀ m, ∑ k ∈ Finset.range m, |h.getD k 0| ≤ (h.map (|·|)).sum := by
    induction h with
    | nil => intro m; simp
    | cons a h ih =>
      rintro (_ | m)
      · rw [Finset.sum_range_zero]
        exact List.sum_nonneg fun v hv => by obtain ⟨u, -, rfl⟩ := List.mem_map.1 hv; exact abs_nonneg _
      · rw [Finset.sum_range_succ', List.map_cons, List.sum_cons, add_comm]
        simp only [List.getD_cons_zero, List.getD_cons_succ]
        exact add_le_add_right (ih m) _
  unfold convAt
  calc |∑ k ∈ Finset.range (n + 1), x.getD k 0 * h.getD (n - k) 0| ≤ ∑ k ∈ Finset.range (n + 1), P * |h.getD (n - k) 0| := by
        refine (Finset.abs_sum_le_sum_abs _ _).trans (Finset.sum_le_sum fun k _ => ?_)
        rw [abs_mul]; exact mul_le_mul_of_nonneg_right (hx' k) (abs_nonneg _)
    _ = P * ∑ k ∈ Finset.range (n + 1), |h.getD k 0| := by
        rw [← Finset.mul_sum, ← Finset.sum_range_reflect]
        congr 1
        refine Finset.sum_congr rfl fun k hk => ?_
        have := Finset.mem_range.1 hk
        congr 2; omega
    _ ≤ _ := mul_le_mul_of_nonneg_left (hs _) hP

/-- **C165**: filtering. In every mode no sample of `conv` exceeds the peak of the signal times the sum of the magnitudes of the filter; no sample of the ears of `sh2bin` exceeds the sum over the channels of such products. -/
theorem C165_filters (m : Mono) (mode : ConvMode) (h : List ℝ) (P : ℝ) (hP : 0 ≤ P) (hx : ∀ v ∈ m.signal, |v| ≤ P) (hs : m.signal ≠ []) (hh : h ≠ []) :
    ∃ m', m.conv mode ⟨[h.length], h⟩ = .ok m' ∧ m'.fs = m.fs ∧ ∀ v ∈ m'.signal, |v| ≤ P * (h.map (|·|)).sum := by
  obtain ⟨s, e⟩ := asarray1d_vec h
  refine ⟨{ m with signal := convKeep mode m.signal h }, ?_, rfl, ?_⟩
  · unfold Mono.conv
    rw [e]
    change ((if m.signal = [] ∨ h = [] then _ else _ : Py (List ℝ)).map _) = _
    rw [if_neg (by tauto)]; rfl
  · have hf : ∀ v ∈ convFull m.signal h, |v| ≤ P * (h.map (|·|)).sum := by
      intro v hv
      obtain ⟨n, -, rfl⟩ := List.mem_map.1 hv
      exact convAt_le _ _ P hP hx n
    intro v hv
    cases mode with
    | full => exact hf v hv
    | same => exact hf v (List.mem_of_mem_drop (List.mem_of_mem_take hv))
    | valid => exact hf v (List.mem_of_mem_drop (List.mem_of_mem_take hv))

/-- `C165_filters`: a first difference at most doubles the peak. -/
example : ∃ m', (⟨[1, -1, 1], 44100⟩ : Mono).conv .full ⟨[2], [1, -1]⟩ = .ok m' ∧ ∀ v ∈ m'.signal, |v| ≤ 2 := by
  obtain ⟨m', h1, -, h2⟩ := C165_filters ⟨[1, -1, 1], 44100⟩ .full [1, -1] 1 zero_le_one (by simp) (by simp) (by simp)
  refine ⟨m', h1, fun v hv => (h2 v hv).trans (by norm_num)⟩

/-- **C165**: the ears of `sh2bin`. -/
theorem C165_binaural {K S T : ℕ} (hK : 2 ≤ K) (hT : 2 ≤ T) (hS : 1 ≤ S) (x : Fin K → Fin S → ℝ) (h : Fin 2 → Fin K → Fin T → ℝ) (P : Fin K → ℝ) (hx : ∀ k s, |x k s| ≤ P k) :
    ∃ ears : Fin 2 → List ℝ, sh2bin (nd2 x) (nd3 h) = .ok [ears 0, ears 1] ∧ ∀ e, ∀ v ∈ ears e, |v| ≤ ∑ k, P k * ∑ j, |h e k j| := by
  refine ⟨fun e => List.ofFn fun n : Fin (S + T - 1) =>
    ∑ k : Fin K, ∑ s : Fin S, if hh : (s : ℕ) ≤ n ∧ (n : ℕ) - s < T then x k s * h e k ⟨n - s, hh.2⟩ else 0, C45_convolution_partial hK hT hS x h, fun e v hv => ?_⟩
  obtain ⟨n, rfl⟩ := (List.mem_ofFn' _ _).1 hv
  refine (Finset.abs_sum_le_sum_abs _ _).trans (Finset.sum_le_sum fun k _ => ?_)
  have hPk : 0 ≤ P k := (abs_nonneg _).trans (hx k ⟨0, hS⟩)
  refine (Finset.abs_sum_le_sum_abs _ _).trans ?_
  rw [Finset.mul_sum]
  have key : ∀ s : Fin S, |if hh : (s : ℕ) ≤ n ∧ (n : ℕ) - s < T then x k s * h e k ⟨n - s, hh.2⟩ else 0| ≤
      ∑ j : Fin T, if (s : ℕ) + j = n then P k * |h e k j| else 0 := by
    intro s
    split_ifs with hh
    · rw [abs_mul]
      refine (mul_le_mul_of_nonneg_right (hx k s) (abs_nonneg _)).trans ?_
      refine le_trans (le_of_eq ?_) (Finset.single_le_sum (f := fun j : Fin T => if (s : ℕ) + j = n then P k * |h e k j| else 0)
        (fun j _ => by positivity) (Finset.mem_univ ⟨n - s, hh.2⟩))
      rw [if_pos (show (s : ℕ) + (n - s) = n by omega)]
    · rw [abs_zero]
      exact Finset.sum_nonneg fun j _ => by positivity
  refine (Finset.sum_le_sum fun s _ => key s).trans ?_
  rw [Finset.sum_comm]
  refine Finset.sum_le_sum fun j _ => ?_
  by_cases hj : ∃ s : Fin S, (s : ℕ) + j = n
  · obtain ⟨s, hs⟩ := hj
    rw [Finset.sum_eq_single s (fun s' _ hne => if_neg fun h' => hne (Fin.ext (by omega))) (by simp), if_pos hs]
  · rw [Finset.sum_eq_zero fun s _ => if_neg fun h' => hj ⟨s, h'⟩]
    positivity

/-- `C165_binaural`: four channels with peaks of one. -/
example (h : Fin 2 → Fin 4 → Fin 2 → ℝ) : ∃ ears : Fin 2 → List ℝ, sh2bin (nd2 fun (_ : Fin 4) (_ : Fin 3) => 1) (nd3 h) = .ok [ears 0, ears 1] ∧
    ∀ e, ∀ v ∈ ears e, |v| ≤ ∑ k, 1 * ∑ j, |h e k j| :=
  C165_binaural (by norm_num) le_rfl (by norm_num) _ h (fun _ => 1) fun _ _ => by simp

/-- **C165**: panning. No gain of `vbap` exceeds the distance compensation of its loudspeaker. -/
theorem C165_panning {L : ℕ} (lstsq : Mat3 → Mat3) (hl : LstsqSpec lstsq) {p : ℝ} (hp : 0 < p) (h : Hull L) (hc : CacheOk lstsq h) (hd : ∀ l, 0 ≤ h.d l)
    (hinj : ∀ f ∈ h.valid, Function.Injective f) (src : List Vec3) :
    ∃ rows, (vbapHull lstsq p src none h).1 = .ok rows ∧ rows.length = src.length ∧ ∀ row ∈ rows, ∀ l, |row l| ≤ h.d l ^ h.a := by
  obtain ⟨rows, h1, h2, h3⟩ := C29_vbap lstsq hl hp h hc hinj src
  refine ⟨rows, h1, h2, fun row hr l => ?_⟩
  obtain ⟨i, hi, rfl⟩ := List.getElem_of_mem hr
  obtain ⟨g, hg, h4⟩ := h3 i src[i] rows[i] (List.getElem?_eq_getElem (by omega)) (List.getElem?_eq_getElem hi)
  have hd' : 0 ≤ h.d l ^ h.a := Real.rpow_nonneg (hd l) _
  have hgl : |g l| ≤ 1 := by
    rcases h4 with rfl | ⟨f, -, hf⟩
    · simp
    · have hn := hf.norm
      unfold npNorm at hn
      have h0 : 0 ≤ ∑ i, |g i| ^ p := Finset.sum_nonneg fun i _ => rpow_nonneg (abs_nonneg _) _
      have h5 : |g l| ^ p ≤ ∑ i, |g i| ^ p := Finset.single_le_sum (f := fun i => |g i| ^ p) (fun i _ => rpow_nonneg (abs_nonneg _) _) (Finset.mem_univ l)
      have h6 := rpow_le_rpow (rpow_nonneg (abs_nonneg _) _) h5 (show 0 ≤ 1 / p by positivity)
      rw [hn, ← rpow_mul (abs_nonneg _), mul_one_div_cancel hp.ne', rpow_one] at h6
      exact h6
  rw [hg, abs_mul, abs_of_nonneg hd']
  exact mul_le_of_le_one_right hd' hgl

/-- `C165_panning`: the octahedron. -/
example (lstsq : Mat3 → Mat3) (hl : LstsqSpec lstsq) (src : List Vec3) : ∃ rows, (vbapHull lstsq 2 src none Oct.hull).1 = .ok rows ∧ rows.length = src.length ∧
    ∀ row ∈ rows, ∀ l, |row l| ≤ Oct.hull.d l ^ Oct.hull.a :=
  C165_panning lstsq hl two_pos Oct.hull nofun (fun l => by simp [Oct.hull]) Oct.inj src

end Verif.Props
