import Verif.Props.Allrap2
import Verif.Props.DesignDecoding

/-! C128: `allrad2` applies the `allrap2` gains of the kernel directions; inputs that do not fit the order (also for `allrad`). -/

namespace Verif.Props
open Real Verif.Sph Verif.Utils Verif.Decoder

/-- What `allrad2` returns, from the gains `allrap2` gives for the kernel directions. -/
theorem allrad2_eq {L S : ℕ} (lstsq : Mat3 → Mat3) {s : Setup L} {am : Ambi L} {k : Kernel} (ha : s.ambi = some am)
    (hk : s.kernel = some k) {No : Option ℕ} {N : ℕ} (hN : OrderOf s No N) (F : Matrix (Fin ((N + 1) ^ 2)) (Fin S) ℝ) :
    allrad2 lstsq F No s = ((allrap2 lstsq k.points (some N) s).1.map fun Gk => (List.finRange (realIdx am).length).map fun l =>
      (((4 * π / k.J) • (Matrix.transpose (fun (j : Fin k.J) (l : Fin (realIdx am).length) => (Gk j).getD l 0)
        * shAt N k.points)) * F) l, (allrap2 lstsq k.points (some N) s).2) := by
  unfold allrad2
  rw [prologue_ok ha hk hN]
  dsimp only
  rw [if_neg (not_not.2 (C11_order_square N).symm)]
  rcases (allrap2 lstsq k.points (some N) s).1 with e | Gk
  · rfl
  · refine Prod.ext ?_ rfl
    show (applyDecoder _ F).bind _ = _
    rw [applyDecoder_ok]
    rfl

/-- C128: sources encoded with `src_to_sh` and decoded with `allrad2`: a loudspeaker plays, for every kernel direction, its `allrap2` gain times the
order-limited plane wave `1/J sum (2n+1) P_n` of every source seen from that direction. -/
theorem C128_signals {L n S : ℕ} (lstsq : Mat3 → Mat3) (s : Setup L) (k : Kernel) (hk : s.kernel = some k)
    (hu : ∀ j, ∑ c, k.points j c ^ 2 = 1) (No : Option ℕ) (N : ℕ) (hN : OrderOf s No N)
    (azi zen : Fin n → ℝ) (hz : ∀ i, zen i ∈ Set.Icc 0 π) (sig : Matrix (Fin n) (Fin S) ℝ) (G : Fin k.J → List ℝ) (s' : Setup L)
    (hG : allrap2 lstsq k.points (some N) s = (.ok G, s')) :
    ∃ out : List (Fin S → ℝ), allrad2 lstsq (srcToSh sig azi zen N) No s = (.ok out, s') ∧ (∀ j, (G j).length = out.length) ∧
      ∀ l t, l < out.length → (out.map fun x => x t).getD l 0 = ∑ j, (G j).getD l 0 *
        ∑ i, (1 / k.J * ∑ m ∈ Finset.range (N + 1), (2 * m + 1) * evalLegendre m (k.points j ⬝ᵥ dirVec (azi i) (zen i))) * sig i t := by
  rcases ha : s.ambi with _ | am
  · have := ((C40_guard lstsq s k.points sig (some N) 2 []).1 (Or.inl ha)).2.1
    rw [hG] at this; cases this
  have hGe := hG
  rw [allrap2_eq lstsq _ ha hk (.inl rfl)] at hGe
  have hlen : ∀ j, (G j).length = (realIdx am).length := by
    intro j
    rcases hg : (kernelGains lstsq am k).1 with e | Gk
    · rw [hg] at hGe; cases hGe
    · rw [hg] at hGe
      rw [← Except.ok.inj (Prod.mk.inj hGe).1]
      simp
  rw [allrad2_eq lstsq ha hk hN, hG]
  refine ⟨_, rfl, fun j => by simp [hlen j], fun l t hl => ?_⟩
  have hl : l < (realIdx am).length := by simpa using hl
  have hpos := pi_pos
  have hker : ∀ j i, shVec N (dirOf (k.points j)).1 (dirOf (k.points j)).2 ⬝ᵥ shVec N (azi i) (zen i)
      = ∑ m ∈ Finset.range (N + 1), (2 * m + 1) / (4 * π) * evalLegendre m (k.points j ⬝ᵥ dirVec (azi i) (zen i)) := by
    intro j i
    have h := C18_kernel_default N (dirOf (k.points j)).1 (dirOf (k.points j)).2 (azi i) (zen i) (dirOf_zenith _) (hz i)
    unfold bandlimitedDirac at h
    simp only [Option.getD_none, List.length_replicate, if_true] at h
    rw [← Except.ok.inj h]
    refine Finset.sum_congr rfl fun m hm => ?_
    rw [cos_angleBetween, unit_dir (hu j), List.getD_eq_getElem?_getD, List.getElem?_replicate, if_pos (Finset.mem_range.1 hm)]
    simp
  rw [List.getD_eq_getElem?_getD, List.getElem?_map, List.getElem?_map, List.getElem?_eq_getElem (by simpa using hl), Option.map_some, Option.map_some,
    Option.getD_some, List.getElem_finRange]
  unfold srcToSh
  have hrow : ∀ j, (shAt N k.points * ((shMat N azi zen).transpose * sig)) j t
      = ∑ i, (shVec N (dirOf (k.points j)).1 (dirOf (k.points j)).2 ⬝ᵥ shVec N (azi i) (zen i)) * sig i t := by
    intro j
    rw [← Matrix.mul_assoc]
    exact Matrix.mul_apply
  rw [Matrix.smul_mul, Matrix.mul_assoc]
  refine (congrArg (fun x => 4 * π / (k.J : ℝ) * x) Matrix.mul_apply).trans ?_
  rw [Finset.mul_sum]
  refine Finset.sum_congr rfl fun j _ => ?_
  rw [hrow]
  change 4 * π / (k.J : ℝ) * ((G j).getD l 0 * _) = _
  rw [mul_left_comm, Finset.mul_sum]
  congr 1
  refine Finset.sum_congr rfl fun i _ => ?_
  rw [hker, ← mul_assoc, Finset.mul_sum, Finset.mul_sum]
  congr 1
  refine Finset.sum_congr rfl fun m _ => ?_
  field_simp

/-- C128: `allrad2` is linear in the input. -/
theorem C128_linear {L S : ℕ} (lstsq : Mat3 → Mat3) (s : Setup L) (No : Option ℕ) (N : ℕ) (hN : OrderOf s No N)
    (F F' : Matrix (Fin ((N + 1) ^ 2)) (Fin S) ℝ) (c : ℝ) (o o' : List (Fin S → ℝ))
    (h : (allrad2 lstsq F No s).1 = .ok o) (h' : (allrad2 lstsq F' No s).1 = .ok o') :
    (allrad2 lstsq (c • F + F') No s).1 = .ok (List.zipWith (fun x y => c • x + y) o o') := by
  rcases ha : s.ambi with _ | am
  · rw [((C40_guard lstsq s (fun i : Fin 0 => 0) F No 2 []).1 (Or.inl ha)).2.2.2] at h; cases h
  rcases hk : s.kernel with _ | k
  · rw [((C40_guard lstsq s (fun i : Fin 0 => 0) F No 2 []).1 (Or.inr hk)).2.2.2] at h; cases h
  rw [allrad2_eq lstsq ha hk hN] at h h' ⊢
  rcases hg : (allrap2 lstsq k.points (some N) s).1 with e | Gk
  · rw [hg] at h; cases h
  · rw [hg] at h h'
    rw [← Except.ok.inj h, ← Except.ok.inj h']
    show Except.ok _ = Except.ok _
    congr 1
    rw [List.zipWith_map, List.zipWith_self]
    refine List.map_congr_left fun l _ => ?_
    funext t
    rw [Matrix.mul_add, Matrix.mul_smul]
    rfl

/-- C128: a number of channels that is not `(N+1)²` never gives an output: another order raises `AssertionError` and changes nothing; surplus channels
raise `ValueError` wherever an input of the right size is decoded.  The same for `allrad`. -/
theorem C128_channels {L K S : ℕ} (lstsq : Mat3 → Mat3) (s : Setup L) (No : Option ℕ) (N : ℕ) (hN : OrderOf s No N)
    (F : Matrix (Fin K) (Fin S) ℝ) (hK : K ≠ (N + 1) ^ 2) (F' : Matrix (Fin ((N + 1) ^ 2)) (Fin S) ℝ) :
    (∀ o, (allrad2 lstsq F' No s).1 = .ok o →
      if (N + 1) ^ 2 < K ∧ K < (N + 2) ^ 2 then (allrad2 lstsq F No s).1 = .error .valueError
      else allrad2 lstsq F No s = (.error .assertionError, s)) ∧
    (∀ o, (allrad lstsq F' No s).1 = .ok o →
      if (N + 1) ^ 2 < K ∧ K < (N + 2) ^ 2 then (allrad lstsq F No s).1 = .error .valueError
      else allrad lstsq F No s = (.error .assertionError, s)) := by
  have hord : (N : ℤ) ≠ shOrder K ↔ ¬ ((N + 1) ^ 2 < K ∧ K < (N + 2) ^ 2) := by
    rw [ne_comm, ne_eq, (C11_order_iff K N).1, not_iff_not]
    constructor
    · rintro ⟨h1, h2⟩; exact ⟨lt_of_le_of_ne h1 (Ne.symm hK), h2⟩
    · rintro ⟨h1, h2⟩; exact ⟨h1.le, h2⟩
  have hbad : ∀ {R : ℕ} (D : Matrix (Fin R) (Fin ((N + 1) ^ 2)) ℝ), applyDecoder D F = .error .valueError := by
    intro R D
    unfold applyDecoder
    rw [dif_neg (Ne.symm hK)]
  constructor
  · intro o ho
    rcases ha : s.ambi with _ | am
    · rw [((C40_guard lstsq s (fun i : Fin 0 => 0) F' No 2 []).1 (Or.inl ha)).2.2.2] at ho; cases ho
    rcases hk : s.kernel with _ | k
    · rw [((C40_guard lstsq s (fun i : Fin 0 => 0) F' No 2 []).1 (Or.inr hk)).2.2.2] at ho; cases ho
    rw [allrad2_eq lstsq ha hk hN] at ho
    unfold allrad2
    rw [prologue_ok ha hk hN]
    dsimp only
    split_ifs with h1 h2 h3
    · exact absurd h1 (hord.1 h2)
    · rcases hg : (allrap2 lstsq k.points (some N) s).1 with e | Gk
      · rw [hg] at ho; cases ho
      · show (applyDecoder _ F).bind _ = _
        rw [hbad]; rfl
    · rfl
    · exact absurd (hord.2 h1) h3
  · intro o ho
    rcases ha : s.ambi with _ | am
    · rw [((C40_guard lstsq s (fun i : Fin 0 => 0) F' No 2 []).1 (Or.inl ha)).2.2.1] at ho; cases ho
    rcases hk : s.kernel with _ | k
    · rw [((C40_guard lstsq s (fun i : Fin 0 => 0) F' No 2 []).1 (Or.inr hk)).2.2.1] at ho; cases ho
    rw [allrad_eq lstsq ha hk hN] at ho
    unfold allrad
    rw [prologue_ok ha hk hN]
    dsimp only
    split_ifs with h1 h2 h3
    · exact absurd h1 (hord.1 h2)
    · rcases hg : (kernelGains lstsq am k).1 with e | Gk
      · rw [hg] at ho; cases ho
      · show (applyDecoder _ F).bind _ = _
        rw [hbad]; rfl
    · rfl
    · exact absurd (hord.2 h1) h3

/-- The octahedron with the cube as kernel decodes every first-order input made of two sources. -/
theorem oct_allrad2 : ∃ (lstsq : Mat3 → Mat3) (s : Setup 6), ∀ sig : Matrix (Fin 2) (Fin 4) ℝ, ∃ out : List (Fin 4 → ℝ),
    (allrad2 lstsq (srcToSh sig ![0, 1] ![1, 2] 1) (some 1) s).1 = .ok out := by
  obtain ⟨lstsq, hl⟩ := exists_lstsq3
  obtain ⟨azi, zen, hd⟩ := cube_design
  let k : Kernel := ⟨8, fun l => dirVec (azi l) (zen l), 1⟩
  let s : Setup 6 := ⟨Oct.hull, some ⟨0, Oct.hull, none⟩, some k⟩
  obtain ⟨G, h1, h2⟩ := C102_energy (L := 6) (t := 3) lstsq hl k.points s ⟨0, Oct.hull, none⟩
    k rfl rfl (some 1) 1 (.inl rfl) (oct_cache lstsq) Oct.inj (fun _ _ => rfl) (design_points hd)
    (by norm_num) (fun j => by
      obtain ⟨f, hf, c, hc1, hc2⟩ := oct_cone (dirVec (azi j) (zen j))
      refine C30_cone lstsq hl (p := 2) (by norm_num) Oct.hull (oct_cache lstsq) Oct.inj Oct.li (fun l => (Oct.norm_pts l).symm)
        (dirVec (azi j) (zen j)) (fun h0 => ?_) f hf c hc1 hc2
      have := norm3_dirVec (azi j) (zen j)
      rw [h0] at this
      simp [norm3] at this)
  have hpi := pi_gt_three
  refine ⟨lstsq, s, fun sig => ?_⟩
  obtain ⟨out, ho, -⟩ := C128_signals lstsq s k rfl (fun j => by
      have := sin_sq_add_cos_sq (azi j)
      have := sin_sq_add_cos_sq (zen j)
      simp only [k, dirVec, Fin.sum_univ_three, Matrix.cons_val]
      nlinarith [sin_sq_add_cos_sq (azi j)]) (some 1) 1 (.inl rfl) ![0, 1] ![1, 2]
    (by intro i; fin_cases i <;> constructor <;> simp <;> linarith) sig G _ (Prod.ext h1 rfl)
  exact ⟨out, by rw [ho]⟩

/-- C128 on the octahedron with the cube as kernel, order 1: decoding works, five channels raise `ValueError`, nine `AssertionError`. -/
example (sig : Matrix (Fin 2) (Fin 4) ℝ) (F5 : Matrix (Fin 5) (Fin 4) ℝ) (F9 : Matrix (Fin 9) (Fin 4) ℝ) : ∃ (lstsq : Mat3 → Mat3) (s : Setup 6) (out : List (Fin 4 → ℝ)),
    (allrad2 lstsq (srcToSh sig ![0, 1] ![1, 2] 1) (some 1) s).1 = .ok out ∧ (allrad2 lstsq F5 (some 1) s).1 = .error .valueError ∧
    (allrad2 lstsq F9 (some 1) s).1 = .error .assertionError := by
  obtain ⟨lstsq, s, h⟩ := oct_allrad2
  obtain ⟨out, ho⟩ := h sig
  have h5 := (C128_channels lstsq s (some 1) 1 (.inl rfl) F5 (by norm_num) (srcToSh sig ![0, 1] ![1, 2] 1)).1 out ho
  have h9 := (C128_channels lstsq s (some 1) 1 (.inl rfl) F9 (by norm_num) (srcToSh sig ![0, 1] ![1, 2] 1)).1 out ho
  rw [if_pos (by norm_num)] at h5
  rw [if_neg (by norm_num)] at h9
  exact ⟨lstsq, s, out, ho, h5, by rw [h9]⟩

/-- `C128_linear` on the same setup: the hypotheses hold for two sound fields. -/
example (sig sig' : Matrix (Fin 2) (Fin 4) ℝ) : ∃ (lstsq : Mat3 → Mat3) (s : Setup 6) (o o' : List (Fin 4 → ℝ)),
    (allrad2 lstsq (srcToSh sig ![0, 1] ![1, 2] 1) (some 1) s).1 = .ok o ∧ (allrad2 lstsq (srcToSh sig' ![0, 1] ![1, 2] 1) (some 1) s).1 = .ok o' ∧
    (allrad2 lstsq ((3 : ℝ) • srcToSh sig ![0, 1] ![1, 2] 1 + srcToSh sig' ![0, 1] ![1, 2] 1) (some 1) s).1
      = .ok (List.zipWith (fun x y => (3 : ℝ) • x + y) o o') := by
  obtain ⟨lstsq, s, h⟩ := oct_allrad2
  obtain ⟨o, ho⟩ := h sig
  obtain ⟨o', ho'⟩ := h sig'
  exact ⟨lstsq, s, o, o', ho, ho', C128_linear lstsq s (some 1) 1 (.inl rfl) _ _ 3 o o' ho ho'⟩

end Verif.Props
