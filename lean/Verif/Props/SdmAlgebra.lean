import Verif.Props.Bsdm
import Verif.Props.Hrirs
import Verif.Props.Beamformers
import Mathlib.RingTheory.PowerSeries.Basic

/-! Renderings of spatial impulse responses: C149. -/

namespace Verif.Props

open Verif.Utils Verif.Decoder Verif.Sph Verif.Sig Verif.Parsa PowerSeries Finset

/-- A signal as a power series in the delay by one sample. -/
noncomputable def zSeries (x : List ℝ) : PowerSeries ℝ := PowerSeries.mk fun n => x.getD n 0

theorem zSeries_ext {x y : List ℝ} (hl : x.length = y.length) (h : zSeries x = zSeries y) : x = y := by
  refine List.ext_getElem hl fun i h1 h2 => ?_
  have := congrArg (coeff i) h
  simpa [zSeries, coeff_mk, List.getD_eq_getElem?_getD, h1, h2] using this

theorem zSeries_conv (x h : List ℝ) (hx : x ≠ []) (hh : h ≠ []) : zSeries (convFull x h) = zSeries x * zSeries h := by
  ext n
  rw [coeff_mul, Finset.Nat.sum_antidiagonal_eq_sum_range_succ_mk]
  simp only [zSeries, coeff_mk]
  have h1 : 1 ≤ x.length := List.length_pos_of_ne_nil hx
  have h2 : 1 ≤ h.length := List.length_pos_of_ne_nil hh
  by_cases hn : n < x.length + h.length - 1
  · rw [convFull, List.getD_eq_getElem?_getD, List.getElem?_map, List.getElem?_range hn]
    rfl
  · rw [List.getD_eq_default _ _ (by simp [convFull]; omega)]
    refine (Finset.sum_eq_zero fun k hk => ?_).symm
    by_cases hk' : k < x.length
    · rw [List.getD_eq_default h _ (by omega), mul_zero]
    · rw [List.getD_eq_default x _ (by omega), zero_mul]

theorem zSeries_cons (a : ℝ) (x : List ℝ) : zSeries (a :: x) = C a + X * zSeries x := by
  ext n
  cases n with
  | zero => simp [zSeries]
  | succ n =>
    rw [map_add, coeff_succ_X_mul, coeff_C]
    simp [zSeries]

theorem zSeries_append (x y : List ℝ) : zSeries (x ++ y) = zSeries x + X ^ x.length * zSeries y := by
  induction x with
  | nil =>
    have : zSeries [] = 0 := by ext n; simp [zSeries]
    simp [this]
  | cons a x ih => rw [List.cons_append, zSeries_cons, ih, zSeries_cons, List.length_cons, pow_succ]; ring

/-- The nearest responses of a consistent set, as functions of the direction. -/
theorem nearest_fun (h : HRIRs) (hc : h.Consistent) (h0 : h.numGrid ≠ 0) : ∃ f : ℝ → ℝ → List ℝ × List ℝ, ∀ a z, h.nearestHrirs a z = .ok (f a z) ∧
    (f a z).1.length = h.numSamples ∧ (f a z).2.length = h.numSamples := by
  obtain ⟨c1, c2, c3, c4, c5, c6, c7, c8⟩ := hc
  have hg : h.Grid := ⟨c1.trans c2.symm, by intro hn; rw [hn] at c1; exact h0 c1.symm, c3.trans c1.symm, c4.trans c1.symm⟩
  have key : ∀ a z, ∃ lr : List ℝ × List ℝ, h.nearestHrirs a z = .ok lr ∧ lr.1.length = h.numSamples ∧ lr.2.length = h.numSamples := by
    intro a z
    obtain ⟨i, l, r, e, -, e1, e2⟩ := C51_rows h hg a z
    exact ⟨(l, r), e, (c5 l (List.mem_of_getElem? e1)).trans c7, (c6 r (List.mem_of_getElem? e2)).trans c8⟩
  exact ⟨fun a z => (key a z).choose, fun a z => (key a z).choose_spec⟩

/-- The sum over the samples, as a power series. -/
noncomputable def panned (g : ℝ → ℝ → List ℝ) (p phi theta : List ℝ) : PowerSeries ℝ :=
  ∑ i ∈ range p.length, C (p.getD i 0) * (X ^ i * zSeries (g (phi.getD i 0) (theta.getD i 0)))

theorem bsdm_series (h : HRIRs) (f : ℝ → ℝ → List ℝ × List ℝ)
    (hf : ∀ a z, h.nearestHrirs a z = .ok (f a z) ∧ (f a z).1.length = h.numSamples ∧ (f a z).2.length = h.numSamples)
    (lock cpus : ℕ) (p phi theta : List ℝ) (jobs : Option ℤ) (hj : 1 ≤ jobs.getD cpus) (h1 : p.length = phi.length) (h2 : p.length = theta.length)
    (out : Py (List ℝ × List ℝ)) (hr : RenderBsdm (fun _ _ => lock) cpus p phi theta h jobs out) :
    ∃ L R, out = .ok (L, R) ∧ L.length = p.length + h.numSamples - 1 ∧ R.length = p.length + h.numSamples - 1 ∧
      zSeries L = panned (fun a z => (f a z).1) p phi theta ∧ zSeries R = panned (fun a z => (f a z).2) p phi theta := by
  obtain ⟨L, R, e, l1, l2, hv⟩ := C62_convolution lock cpus p phi theta h jobs hj h1 h2 (fun i => (f (phi.getD i 0) (theta.getD i 0)).1)
    (fun i => (f (phi.getD i 0) (theta.getD i 0)).2) (fun i _ => hf _ _) out hr
  have key : ∀ (Y : List ℝ) (g : ℝ → ℝ → List ℝ), Y.length = p.length + h.numSamples - 1 → (∀ a z, (g a z).length = h.numSamples) →
      (∀ t < p.length + h.numSamples - 1, Y.getD t 0 = ∑ i ∈ Finset.range p.length, (if i ≤ t then p.getD i 0 * (g (phi.getD i 0) (theta.getD i 0)).getD (t - i) 0 else 0)) →
      zSeries Y = panned g p phi theta := by
    intro Y g hl hg hY
    ext t
    simp only [panned, map_sum, coeff_C_mul, coeff_X_pow_mul', zSeries, coeff_mk]
    by_cases ht : t < p.length + h.numSamples - 1
    · rw [hY t ht]
      exact Finset.sum_congr rfl fun i _ => by split <;> simp
    · rw [List.getD_eq_default _ _ (by omega)]
      refine (Finset.sum_eq_zero fun i hi => ?_).symm
      have hi' := Finset.mem_range.1 hi
      split
      · rw [List.getD_eq_default (g _ _) _ (by rw [hg]; omega), mul_zero]
      · rw [mul_zero]
  exact ⟨L, R, e, l1, l2, key L _ l1 (fun a z => (hf a z).2.1) fun t ht => (hv t ht).1, key R _ l2 (fun a z => (hf a z).2.2) fun t ht => (hv t ht).2⟩

theorem zipWith_getD {f : ℝ → ℝ → ℝ} (hf : f 0 0 = 0) {p q : List ℝ} (hl : p.length = q.length) (i : ℕ) :
    (List.zipWith f p q).getD i 0 = f (p.getD i 0) (q.getD i 0) := by
  by_cases hi : i < p.length
  · have hi' : i < q.length := hl ▸ hi
    simp [List.getD_eq_getElem?_getD, hi, hi', List.getElem?_zipWith]
  · rw [List.getD_eq_default _ _ (by simp; omega), List.getD_eq_default p _ (by omega), List.getD_eq_default q _ (by omega), hf]

theorem zSeries_zipWith (a b : ℝ) {p q : List ℝ} (hl : p.length = q.length) :
    zSeries (List.zipWith (fun x y => a * x + b * y) p q) = C a * zSeries p + C b * zSeries q := by
  ext n
  simp only [zSeries, map_add, coeff_C_mul, coeff_mk]
  exact zipWith_getD (f := fun x y => a * x + b * y) (by simp) hl n

/-- **C149** (superposition): two pressure signals arriving from the same directions. -/
theorem C149_superposition (h : HRIRs) (hc : h.Consistent) (h0 : h.numGrid ≠ 0) (lock cpus : ℕ) (p q phi theta : List ℝ) (a b : ℝ) (hq : p.length = q.length)
    (h1 : p.length = phi.length) (h2 : p.length = theta.length) (j₁ j₂ j₃ : Option ℤ) (hj₁ : 1 ≤ j₁.getD cpus) (hj₂ : 1 ≤ j₂.getD cpus) (hj₃ : 1 ≤ j₃.getD cpus)
    (out₁ out₂ out₃ : Py (List ℝ × List ℝ)) (r₁ : RenderBsdm (fun _ _ => lock) cpus p phi theta h j₁ out₁) (r₂ : RenderBsdm (fun _ _ => lock) cpus q phi theta h j₂ out₂)
    (r₃ : RenderBsdm (fun _ _ => lock) cpus (List.zipWith (fun x y => a * x + b * y) p q) phi theta h j₃ out₃) :
    ∃ L R L' R', out₁ = .ok (L, R) ∧ out₂ = .ok (L', R') ∧
      out₃ = .ok (List.zipWith (fun x y => a * x + b * y) L L', List.zipWith (fun x y => a * x + b * y) R R') := by
  obtain ⟨f, hf⟩ := nearest_fun h hc h0
  have hz : (List.zipWith (fun x y => a * x + b * y) p q).length = p.length := by simp [← hq]
  obtain ⟨L, R, e, l1, l2, sL, sR⟩ := bsdm_series h f hf lock cpus p phi theta j₁ hj₁ h1 h2 out₁ r₁
  obtain ⟨L', R', e', l1', l2', sL', sR'⟩ := bsdm_series h f hf lock cpus q phi theta j₂ hj₂ (hq ▸ h1) (hq ▸ h2) out₂ r₂
  obtain ⟨M, S, e'', m1, m2, sM, sS⟩ := bsdm_series h f hf lock cpus _ phi theta j₃ hj₃ (hz.trans h1) (hz.trans h2) out₃ r₃
  refine ⟨L, R, L', R', e, e', ?_⟩
  rw [e'']
  have key : ∀ g : ℝ → ℝ → List ℝ, panned g (List.zipWith (fun x y => a * x + b * y) p q) phi theta = C a * panned g p phi theta + C b * panned g q phi theta := by
    intro g
    unfold panned
    rw [hz, ← hq, Finset.mul_sum, Finset.mul_sum, ← Finset.sum_add_distrib]
    refine Finset.sum_congr rfl fun i _ => ?_
    rw [zipWith_getD (f := fun x y => a * x + b * y) (by simp) hq, map_add, map_mul, map_mul]
    ring
  rw [hz] at m1 m2
  rw [hq] at l1 l2 m1 m2
  congr 1
  refine Prod.ext (zSeries_ext (by simp [m1, l1, l1']) ?_) (zSeries_ext (by simp [m2, l2, l2']) ?_)
  · rw [zSeries_zipWith a b (l1.trans l1'.symm), sM, sL, sL', key]
  · rw [zSeries_zipWith a b (l2.trans l2'.symm), sS, sR, sR', key]

theorem panned_append (g : ℝ → ℝ → List ℝ) (p phi theta p' phi' theta' : List ℝ) (h1 : p.length = phi.length) (h2 : p.length = theta.length) :
    panned g (p ++ p') (phi ++ phi') (theta ++ theta') = panned g p phi theta + X ^ p.length * panned g p' phi' theta' := by
  unfold panned
  rw [List.length_append, Finset.sum_range_add, Finset.mul_sum]
  congr 1
  · refine Finset.sum_congr rfl fun i hi => ?_
    have hi := Finset.mem_range.1 hi
    rw [List.getD_append _ _ _ _ hi, List.getD_append _ _ _ _ (h1 ▸ hi), List.getD_append _ _ _ _ (h2 ▸ hi)]
  · refine Finset.sum_congr rfl fun i _ => ?_
    rw [List.getD_append_right _ _ _ _ (by omega), List.getD_append_right _ _ _ _ (by omega), List.getD_append_right _ _ _ _ (by omega), ← h1, ← h2,
      Nat.add_sub_cancel_left, pow_add]
    ring

/-- **C149** (blocks): the response of consecutive parts is the sum of the responses of the parts, the second one delayed by the length of the first; in
particular zeros before delay the result. -/
theorem C149_blocks (h : HRIRs) (hc : h.Consistent) (h0 : h.numGrid ≠ 0) (lock cpus : ℕ) (p phi theta p' phi' theta' : List ℝ)
    (h1 : p.length = phi.length) (h2 : p.length = theta.length) (h1' : p'.length = phi'.length) (h2' : p'.length = theta'.length)
    (j₁ j₂ j₃ : Option ℤ) (hj₁ : 1 ≤ j₁.getD cpus) (hj₂ : 1 ≤ j₂.getD cpus) (hj₃ : 1 ≤ j₃.getD cpus)
    (out₁ out₂ out₃ : Py (List ℝ × List ℝ)) (r₁ : RenderBsdm (fun _ _ => lock) cpus p phi theta h j₁ out₁) (r₂ : RenderBsdm (fun _ _ => lock) cpus p' phi' theta' h j₂ out₂)
    (r₃ : RenderBsdm (fun _ _ => lock) cpus (p ++ p') (phi ++ phi') (theta ++ theta') h j₃ out₃) :
    ∃ L R L' R' M S, out₁ = .ok (L, R) ∧ out₂ = .ok (L', R') ∧ out₃ = .ok (M, S) ∧ M.length = p.length + p'.length + h.numSamples - 1 ∧
      S.length = p.length + p'.length + h.numSamples - 1 ∧ ∀ t,
      M.getD t 0 = L.getD t 0 + (if p.length ≤ t then L'.getD (t - p.length) 0 else 0) ∧
      S.getD t 0 = R.getD t 0 + (if p.length ≤ t then R'.getD (t - p.length) 0 else 0) := by
  obtain ⟨f, hf⟩ := nearest_fun h hc h0
  obtain ⟨L, R, e, -, -, sL, sR⟩ := bsdm_series h f hf lock cpus p phi theta j₁ hj₁ h1 h2 out₁ r₁
  obtain ⟨L', R', e', -, -, sL', sR'⟩ := bsdm_series h f hf lock cpus p' phi' theta' j₂ hj₂ h1' h2' out₂ r₂
  obtain ⟨M, S, e'', m1, m2, sM, sS⟩ := bsdm_series h f hf lock cpus _ _ _ j₃ hj₃ (by simp [h1, h1']) (by simp [h2, h2']) out₃ r₃
  refine ⟨L, R, L', R', M, S, e, e', e'', by rw [m1, List.length_append], by rw [m2, List.length_append], fun t => ⟨?_, ?_⟩⟩
  · have := congrArg (coeff t) (sM.trans (panned_append _ p phi theta p' phi' theta' h1 h2))
    rw [← sL, ← sL', map_add, coeff_X_pow_mul'] at this
    simpa [zSeries] using this
  · have := congrArg (coeff t) (sS.trans (panned_append _ p phi theta p' phi' theta' h1 h2))
    rw [← sR, ← sR', map_add, coeff_X_pow_mul'] at this
    simpa [zSeries] using this

/-- **C149**: where the pressure is zero, the direction does not matter. -/
theorem C149_silent (h : HRIRs) (hc : h.Consistent) (h0 : h.numGrid ≠ 0) (lock cpus : ℕ) (p phi theta phi' theta' : List ℝ)
    (h1 : p.length = phi.length) (h2 : p.length = theta.length) (h1' : p.length = phi'.length) (h2' : p.length = theta'.length)
    (hs : ∀ i, p.getD i 0 ≠ 0 → phi.getD i 0 = phi'.getD i 0 ∧ theta.getD i 0 = theta'.getD i 0)
    (j₁ j₂ : Option ℤ) (hj₁ : 1 ≤ j₁.getD cpus) (hj₂ : 1 ≤ j₂.getD cpus) (out₁ out₂ : Py (List ℝ × List ℝ))
    (r₁ : RenderBsdm (fun _ _ => lock) cpus p phi theta h j₁ out₁) (r₂ : RenderBsdm (fun _ _ => lock) cpus p phi' theta' h j₂ out₂) : out₁ = out₂ := by
  obtain ⟨f, hf⟩ := nearest_fun h hc h0
  obtain ⟨L, R, e, l1, l2, sL, sR⟩ := bsdm_series h f hf lock cpus p phi theta j₁ hj₁ h1 h2 out₁ r₁
  obtain ⟨L', R', e', l1', l2', sL', sR'⟩ := bsdm_series h f hf lock cpus p phi' theta' j₂ hj₂ h1' h2' out₂ r₂
  have key : ∀ g : ℝ → ℝ → List ℝ, panned g p phi theta = panned g p phi' theta' := by
    intro g
    refine Finset.sum_congr rfl fun i _ => ?_
    by_cases hp : p.getD i 0 = 0
    · rw [hp, map_zero, zero_mul, zero_mul]
    · rw [(hs i hp).1, (hs i hp).2]
  rw [e, e']
  congr 1
  exact Prod.ext (zSeries_ext (l1.trans l1'.symm) (by rw [sL, sL', key])) (zSeries_ext (l2.trans l2'.symm) (by rw [sR, sR', key]))

theorem zSeries_sum (p : List ℝ) : zSeries p = ∑ i ∈ range p.length, C (p.getD i 0) * X ^ i := by
  ext n
  simp only [map_sum, coeff_C_mul, coeff_X_pow, zSeries, coeff_mk]
  by_cases hn : n < p.length
  · rw [Finset.sum_eq_single n]
    · simp
    · intro b _ hb; simp [Ne.symm hb]
    · intro hb; exact absurd (Finset.mem_range.2 hn) hb
  · rw [List.getD_eq_default _ _ (by omega)]
    refine (Finset.sum_eq_zero fun i hi => ?_).symm
    have := Finset.mem_range.1 hi
    rw [if_neg (by omega), mul_zero]

/-- **C149**: if all sound comes from one direction, the result is the pressure convolved with the nearest responses of that direction. -/
theorem C149_one_direction (h : HRIRs) (hc : h.Consistent) (h0 : h.numGrid ≠ 0) (hs : h.numSamples ≠ 0) (lock cpus : ℕ) (p : List ℝ) (hp : p ≠ []) (az ze : ℝ)
    (j : Option ℤ) (hj : 1 ≤ j.getD cpus) (out : Py (List ℝ × List ℝ))
    (hr : RenderBsdm (fun _ _ => lock) cpus p (List.replicate p.length az) (List.replicate p.length ze) h j out) :
    ∃ l r, h.nearestHrirs az ze = .ok (l, r) ∧ convolve .full p l = out.map Prod.fst ∧ convolve .full p r = out.map Prod.snd := by
  obtain ⟨f, hf⟩ := nearest_fun h hc h0
  obtain ⟨L, R, e, l1, l2, sL, sR⟩ := bsdm_series h f hf lock cpus p _ _ j hj (by simp) (by simp) out hr
  have n1 : (f az ze).1 ≠ [] := fun hn => hs (by rw [← (hf az ze).2.1, hn]; rfl)
  have n2 : (f az ze).2 ≠ [] := fun hn => hs (by rw [← (hf az ze).2.2, hn]; rfl)
  have key : ∀ g : ℝ → ℝ → List ℝ, panned g p (List.replicate p.length az) (List.replicate p.length ze) = zSeries p * zSeries (g az ze) := by
    intro g
    rw [zSeries_sum p, Finset.sum_mul]
    refine Finset.sum_congr rfl fun i hi => ?_
    have hi := Finset.mem_range.1 hi
    simp only [List.getD_eq_getElem?_getD, List.getElem?_replicate, hi, if_true, Option.getD_some]
    ring
  refine ⟨_, _, (hf az ze).1, ?_, ?_⟩
  · rw [e, convolve, if_neg (by simp [hp, n1])]
    refine congrArg Except.ok (zSeries_ext ?_ ?_)
    · simp [convKeep, convFull, l1, (hf az ze).2.1]
    · rw [sL, key, convKeep, zSeries_conv _ _ hp n1]
  · rw [e, convolve, if_neg (by simp [hp, n2])]
    refine congrArg Except.ok (zSeries_ext ?_ ?_)
    · simp [convKeep, convFull, l2, (hf az ze).2.2]
    · rw [sR, key, convKeep, zSeries_conv _ _ hp n2]

/-- **C149**: an equalised set gives the equalised rendering — `apply_ctf_eq(taps, 'full')` before `render_bsdm` is the convolution with the taps after it. -/
theorem C149_equaliser (h : HRIRs) (hc : h.Consistent) (h0 : h.numGrid ≠ 0) (hs : h.numSamples ≠ 0) (taps : List ℝ) (ht : taps ≠ []) (lock cpus : ℕ)
    (p phi theta : List ℝ) (hp : p ≠ []) (h1 : p.length = phi.length) (h2 : p.length = theta.length) (j₁ j₂ : Option ℤ) (hj₁ : 1 ≤ j₁.getD cpus) (hj₂ : 1 ≤ j₂.getD cpus)
    (out₁ out₂ : Py (List ℝ × List ℝ)) (r₁ : RenderBsdm (fun _ _ => lock) cpus p phi theta h j₁ out₁)
    (r₂ : RenderBsdm (fun _ _ => lock) cpus p phi theta (h.applyCtfEq taps .full).1 j₂ out₂) :
    ∃ L R, out₁ = .ok (L, R) ∧ convolve .full L taps = out₂.map Prod.fst ∧ convolve .full R taps = out₂.map Prod.snd := by
  obtain ⟨f, hf⟩ := nearest_fun h hc h0
  obtain ⟨c1, c2, c3, c4, c5, c6, c7, c8⟩ := id hc
  obtain ⟨L, R, e, l1, l2, sL, sR⟩ := bsdm_series h f hf lock cpus p phi theta j₁ hj₁ h1 h2 out₁ r₁
  have e1 : convRows .full h.left taps = .ok ⟨h.numSamples + taps.length - 1, h.left.rows.map fun r => convFull r taps⟩ := by
    rw [convRows, if_neg (by rw [not_or, not_or]; exact ⟨fun hn => h0 (by rw [← c3, hn]; rfl), c7 ▸ hs, ht⟩), if_neg (by simp)]
    simp [convLen, c7, convKeep]
  have e2 : convRows .full h.right taps = .ok ⟨h.numSamples + taps.length - 1, h.right.rows.map fun r => convFull r taps⟩ := by
    rw [convRows, if_neg (by rw [not_or, not_or]; exact ⟨fun hn => h0 (by rw [← c4, hn]; rfl), c8 ▸ hs, ht⟩), if_neg (by simp)]
    simp [convLen, c8, convKeep]
  obtain ⟨h', hh'⟩ : ∃ h', h' = (h.applyCtfEq taps .full).1 := ⟨_, rfl⟩
  have hh : h' = { h with left := ⟨h.numSamples + taps.length - 1, h.left.rows.map fun r => convFull r taps⟩, right := ⟨h.numSamples + taps.length - 1, h.right.rows.map fun r => convFull r taps⟩, numSamples := h.numSamples + taps.length - 1 } := by
    rw [hh']; unfold HRIRs.applyCtfEq; rw [e1]; dsimp only; rw [e2]
  have hN : h'.numSamples = h.numSamples + taps.length - 1 := by rw [hh]
  have hf' : ∀ a z, h'.nearestHrirs a z = .ok (convFull (f a z).1 taps, convFull (f a z).2 taps) ∧ (convFull (f a z).1 taps).length = h'.numSamples ∧
      (convFull (f a z).2 taps).length = h'.numSamples := by
    intro a z
    obtain ⟨g1, g2, g3⟩ := hf a z
    refine ⟨?_, by simp [convFull, g2, hN], by simp [convFull, g3, hN]⟩
    have hone : h'.nearestOne a z = h.nearestOne a z := by rw [hh]; rfl
    unfold HRIRs.nearestHrirs at g1 ⊢
    rw [hone]
    cases hi : h.nearestOne a z with
    | error e => rw [hi] at g1; cases g1
    | ok i =>
      rw [hi] at g1
      change h.getItem i = _ at g1
      change h'.getItem i = _
      rw [hh]
      unfold HRIRs.getItem at g1 ⊢
      simp only [List.getElem?_map]
      cases hl : h.left.rows[i]? with
      | none => rw [hl] at g1; cases g1
      | some l =>
        cases hr : h.right.rows[i]? with
        | none => rw [hl, hr] at g1; cases g1
        | some r =>
          rw [hl, hr] at g1
          simp only [Except.ok.injEq] at g1
          rw [← g1]; rfl
  rw [← hh'] at r₂
  obtain ⟨L', R', e', l1', l2', sL', sR'⟩ := bsdm_series h' (fun a z => (convFull (f a z).1 taps, convFull (f a z).2 taps)) hf' lock cpus p phi theta j₂ hj₂ h1 h2 out₂ r₂
  have hp1 : 1 ≤ p.length := List.length_pos_of_ne_nil hp
  have ht1 : 1 ≤ taps.length := List.length_pos_of_ne_nil ht
  have nL : L ≠ [] := fun hn => by rw [hn] at l1; simp at l1; omega
  have nR : R ≠ [] := fun hn => by rw [hn] at l2; simp at l2; omega
  have key : ∀ g : ℝ → ℝ → List ℝ, (∀ a z, (g a z).length = h.numSamples) → panned (fun a z => convFull (g a z) taps) p phi theta = panned g p phi theta * zSeries taps := by
    intro g hg
    unfold panned
    rw [Finset.sum_mul]
    refine Finset.sum_congr rfl fun i _ => ?_
    rw [zSeries_conv _ _ (fun hn => hs (by rw [← hg, hn]; rfl)) ht]
    ring
  refine ⟨L, R, e, ?_, ?_⟩
  · rw [e', convolve, if_neg (by simp [nL, ht])]
    refine congrArg Except.ok (zSeries_ext ?_ ?_)
    · simp [convKeep, convFull, l1, l1', hN]; omega
    · rw [sL', key _ (fun a z => (hf a z).2.1), convKeep, zSeries_conv _ _ nL ht, sL]
  · rw [e', convolve, if_neg (by simp [nR, ht])]
    refine congrArg Except.ok (zSeries_ext ?_ ?_)
    · simp [convKeep, convFull, l2, l2', hN]; omega
    · rw [sR', key _ (fun a z => (hf a z).2.2), convKeep, zSeries_conv _ _ nR ht, sR]

/-- **C149**: with the ears of the set exchanged the two responses are exchanged. -/
theorem C149_ears (h : HRIRs) (hc : h.Consistent) (h0 : h.numGrid ≠ 0) (lock cpus : ℕ) (p phi theta : List ℝ)
    (h1 : p.length = phi.length) (h2 : p.length = theta.length) (j₁ j₂ : Option ℤ) (hj₁ : 1 ≤ j₁.getD cpus) (hj₂ : 1 ≤ j₂.getD cpus)
    (out₁ out₂ : Py (List ℝ × List ℝ)) (r₁ : RenderBsdm (fun _ _ => lock) cpus p phi theta h j₁ out₁)
    (r₂ : RenderBsdm (fun _ _ => lock) cpus p phi theta { h with left := h.right, right := h.left } j₂ out₂) :
    ∃ L R, out₁ = .ok (L, R) ∧ out₂ = .ok (R, L) := by
  obtain ⟨f, hf⟩ := nearest_fun h hc h0
  obtain ⟨L, R, e, l1, l2, sL, sR⟩ := bsdm_series h f hf lock cpus p phi theta j₁ hj₁ h1 h2 out₁ r₁
  have hf' : ∀ a z, ({ h with left := h.right, right := h.left } : HRIRs).nearestHrirs a z = .ok (f a z).swap ∧ (f a z).swap.1.length = h.numSamples ∧
      (f a z).swap.2.length = h.numSamples := by
    intro a z
    obtain ⟨g1, g2, g3⟩ := hf a z
    refine ⟨?_, g3, g2⟩
    unfold HRIRs.nearestHrirs at g1 ⊢
    change (h.nearestOne a z).bind _ = _
    cases hi : h.nearestOne a z with
    | error e => rw [hi] at g1; cases g1
    | ok i =>
      rw [hi] at g1
      change h.getItem i = _ at g1
      change HRIRs.getItem _ i = _
      unfold HRIRs.getItem at g1 ⊢
      simp only
      cases hl : h.left.rows[i]? with
      | none => rw [hl] at g1; cases g1
      | some l =>
        cases hr : h.right.rows[i]? with
        | none => rw [hl, hr] at g1; cases g1
        | some r =>
          rw [hl, hr] at g1
          simp only [Except.ok.injEq] at g1
          rw [← g1]; rfl
  obtain ⟨L', R', e', l1', l2', sL', sR'⟩ := bsdm_series _ (fun a z => (f a z).swap) hf' lock cpus p phi theta j₂ hj₂ h1 h2 out₂ r₂
  refine ⟨L, R, e, ?_⟩
  rw [e']
  congr 1
  exact Prod.ext (zSeries_ext (l1'.trans l2.symm) (by rw [sL', sR]; rfl)) (zSeries_ext (l2'.trans l1.symm) (by rw [sR', sL]; rfl))

/-- **C149** for `render_stereo_sdm`: superposition, blocks, and the direction of silent samples does not matter. -/
theorem C149_stereo (p q phi theta phi' theta' : List ℝ) (a b : ℝ) (h1 : p.length = phi.length) (h2 : p.length = theta.length) :
    (p.length = q.length → renderStereoSdm (List.zipWith (fun x y => a * x + b * y) p q) phi theta =
      (List.zipWith (fun x y => a * x + b * y) (renderStereoSdm p phi theta).1 (renderStereoSdm q phi theta).1,
       List.zipWith (fun x y => a * x + b * y) (renderStereoSdm p phi theta).2 (renderStereoSdm q phi theta).2)) ∧
    renderStereoSdm (p ++ q) (phi ++ phi') (theta ++ theta') =
      ((renderStereoSdm p phi theta).1 ++ (renderStereoSdm q phi' theta').1, (renderStereoSdm p phi theta).2 ++ (renderStereoSdm q phi' theta').2) ∧
    (p.length = phi'.length → p.length = theta'.length → (∀ i, p.getD i 0 ≠ 0 → phi.getD i 0 = phi'.getD i 0) → renderStereoSdm p phi theta = renderStereoSdm p phi' theta') := by
  unfold renderStereoSdm
  refine ⟨fun hq => ?_, ?_, ?_⟩
  · induction p generalizing q phi theta with
    | nil => cases q <;> simp [stereoLoop]
    | cons x p ih =>
      cases q with
      | nil => simp at hq
      | cons y q =>
        cases phi with
        | nil => simp at h1
        | cons u phi =>
          cases theta with
          | nil => simp at h2
          | cons v theta =>
            have := ih q phi theta (by simpa using h1) (by simpa using h2) (by simpa using hq)
            rw [Prod.mk.injEq] at this
            simp only [List.zipWith_cons_cons, stereoLoop, List.map_cons, this.1, this.2, Prod.mk.injEq, List.cons.injEq, and_true]
            constructor <;> ring
  · induction p generalizing phi theta with
    | nil =>
      have hp := List.length_eq_zero_iff.1 h1.symm
      have ht := List.length_eq_zero_iff.1 h2.symm
      subst hp; subst ht
      simp [stereoLoop]
    | cons x p ih =>
      cases phi with
      | nil => simp at h1
      | cons u phi =>
        cases theta with
        | nil => simp at h2
        | cons v theta =>
          have := ih phi theta (by simpa using h1) (by simpa using h2)
          rw [Prod.mk.injEq] at this
          simp only [List.cons_append, stereoLoop, List.map_cons, this.1, this.2]
  · intro h1' h2' hs
    induction p generalizing phi theta phi' theta' with
    | nil => simp [stereoLoop]
    | cons x p ih =>
      cases phi with
      | nil => simp at h1
      | cons u phi =>
        cases theta with
        | nil => simp at h2
        | cons v theta =>
          cases phi' with
          | nil => simp at h1'
          | cons u' phi' =>
            cases theta' with
            | nil => simp at h2'
            | cons v' theta' =>
              have := ih phi theta phi' theta' (by simpa using h1) (by simpa using h2) (by simpa using h1') (by simpa using h2') fun i hi => by
                have := hs (i + 1) (by simpa using hi)
                simpa using this
              rw [Prod.mk.injEq] at this
              simp only [stereoLoop, List.map_cons, this.1, this.2, Prod.mk.injEq, List.cons.injEq, and_true]
              by_cases hx : x = 0
              · simp [hx]
              · have : u = u' := by simpa using hs 0 (by simpa using hx)
                rw [this]; exact ⟨rfl, rfl⟩

/-! #### examples -/

theorem twoHrirs_usable : twoHrirs.Consistent ∧ twoHrirs.numGrid ≠ 0 ∧ twoHrirs.numSamples ≠ 0 := by
  refine ⟨⟨rfl, rfl, rfl, rfl, ?_, ?_, rfl, rfl⟩, by decide, by decide⟩ <;> (intro r hr; simp [twoHrirs] at hr; rcases hr with rfl | rfl <;> rfl)

/-- Two samples from different directions, with one and with four jobs. -/
example : ∃ out₁ out₂ out₃, RenderBsdm (fun _ _ => 0) 8 [1, 2] [0, 1] [1, 2] twoHrirs (some 1) out₁ ∧ RenderBsdm (fun _ _ => 0) 8 [3, -1] [0, 1] [1, 2] twoHrirs (some 4) out₂ ∧
    RenderBsdm (fun _ _ => 0) 8 (List.zipWith (fun x y => 2 * x + -1 * y) [1, 2] [3, -1]) [0, 1] [1, 2] twoHrirs none out₃ ∧
    ∃ L R L' R', out₁ = .ok (L, R) ∧ out₂ = .ok (L', R') ∧
      out₃ = .ok (List.zipWith (fun x y => 2 * x + -1 * y) L L', List.zipWith (fun x y => 2 * x + -1 * y) R R') := by
  obtain ⟨o₁, r₁⟩ := (C62_completes 0 8 [1, 2] [0, 1] [1, 2] twoHrirs (some 1)).1
  obtain ⟨o₂, r₂⟩ := (C62_completes 0 8 [3, -1] [0, 1] [1, 2] twoHrirs (some 4)).1
  obtain ⟨o₃, r₃⟩ := (C62_completes 0 8 (List.zipWith (fun x y => 2 * x + -1 * y) [1, 2] [3, -1]) [0, 1] [1, 2] twoHrirs none).1
  exact ⟨_, _, _, r₁, r₂, r₃, C149_superposition twoHrirs twoHrirs_usable.1 twoHrirs_usable.2.1 0 8 [1, 2] [3, -1] [0, 1] [1, 2] 2 (-1) rfl rfl rfl (some 1) (some 4) none (by norm_num) (by norm_num)
    (by norm_num) _ _ _ r₁ r₂ r₃⟩

/-- An equaliser with three taps. -/
example : ∃ out₁ out₂, RenderBsdm (fun _ _ => 0) 8 [1, 2] [0, 1] [1, 2] twoHrirs (some 1) out₁ ∧
    RenderBsdm (fun _ _ => 0) 8 [1, 2] [0, 1] [1, 2] (twoHrirs.applyCtfEq [1, 0, -1] .full).1 (some 2) out₂ ∧
    ∃ L R, out₁ = .ok (L, R) ∧ convolve .full L [1, 0, -1] = out₂.map Prod.fst ∧ convolve .full R [1, 0, -1] = out₂.map Prod.snd := by
  obtain ⟨o₁, r₁⟩ := (C62_completes 0 8 [1, 2] [0, 1] [1, 2] twoHrirs (some 1)).1
  obtain ⟨o₂, r₂⟩ := (C62_completes 0 8 [1, 2] [0, 1] [1, 2] (twoHrirs.applyCtfEq [1, 0, -1] .full).1 (some 2)).1
  exact ⟨_, _, r₁, r₂, C149_equaliser twoHrirs twoHrirs_usable.1 twoHrirs_usable.2.1 twoHrirs_usable.2.2 [1, 0, -1] (by simp) 0 8 [1, 2] [0, 1] [1, 2] (by simp) rfl rfl (some 1) (some 2)
    (by norm_num) (by norm_num) _ _ r₁ r₂⟩

/-- `C149_blocks`, `C149_silent`, `C149_one_direction`, `C149_ears`, `C149_stereo`: their remaining hypotheses. -/
example : ([1, 0] : List ℝ).length = ([5, 6] : List ℝ).length ∧ (∀ i, ([1, 0] : List ℝ).getD i 0 ≠ 0 → ([5, 6] : List ℝ).getD i 0 = ([5, 7] : List ℝ).getD i 0) ∧
    ∃ out, RenderBsdm (fun _ _ => 0) 8 [1, 0] (List.replicate 2 1) (List.replicate 2 2) { twoHrirs with left := twoHrirs.right, right := twoHrirs.left } none out := by
  refine ⟨rfl, fun i hi => ?_, (C62_completes 0 8 _ _ _ _ _).1⟩
  match i with
  | 0 => rfl
  | 1 => simp at hi
  | (n + 2) => simp at hi

end Verif.Props
