import Verif.Model.ParsaPar
import Verif.Props.ProcessSignals

/-! Pseudo-intensity: C63. -/

namespace Verif.Props
open Parsa Real

theorem fold_not_mem (ws : List ((ℕ × Fin 3) × ℝ)) (m : ℕ × Fin 3 → ℝ) (a : ℕ × Fin 3) (h : a ∉ ws.map Prod.fst) :
    ws.foldl (fun m x => Function.update m x.1 x.2) m a = m a := by
  induction ws generalizing m with
  | nil => rfl
  | cons x xs ih =>
    simp only [List.map_cons, List.mem_cons, not_or] at h
    rw [List.foldl_cons, ih _ h.2, Function.update_of_ne h.1]

theorem fold_mem (ws : List ((ℕ × Fin 3) × ℝ)) (m : ℕ × Fin 3 → ℝ) (a : ℕ × Fin 3) (v : ℝ) (hn : (ws.map Prod.fst).Nodup) (h : (a, v) ∈ ws) :
    ws.foldl (fun m x => Function.update m x.1 x.2) m a = v := by
  induction ws generalizing m with
  | nil => cases h
  | cons x xs ih =>
    rw [List.map_cons, List.nodup_cons] at hn
    rw [List.foldl_cons]
    rcases List.mem_cons.mp h with h | h
    · subst h
      rw [fold_not_mem _ _ _ hn.1, Function.update_self]
    · exact ih _ hn.2 h

theorem applyWrites_perm (ws ws' : List ((ℕ × Fin 3) × ℝ)) (hn : (ws.map Prod.fst).Nodup) (hp : ws'.Perm ws) : applyWrites ws' = applyWrites ws := by
  have hn' : (ws'.map Prod.fst).Nodup := (hp.map Prod.fst).nodup_iff.mpr hn
  funext a
  unfold applyWrites
  by_cases h : a ∈ ws.map Prod.fst
  · obtain ⟨⟨b, v⟩, hb, rfl⟩ := List.mem_map.mp h
    rw [fold_mem ws _ b v hn hb, fold_mem ws' _ b v hn' (hp.mem_iff.mpr hb)]
  · rw [fold_not_mem ws _ a h, fold_not_mem ws' _ a (fun h' => h ((hp.map Prod.fst).mem_iff.mp h'))]

theorem allWrites_nodup (n : ℕ) (win W X Y Z : List ℝ) : ((allWrites n win W X Y Z).map Prod.fst).Nodup := by
  unfold allWrites
  rw [List.map_flatMap, List.nodup_flatMap]
  refine ⟨fun i _ => by simp [intensityWrites], ?_⟩
  refine List.Pairwise.imp (R := (· < ·)) ?_ List.pairwise_lt_range
  intro a b hab
  simp only [Function.onFun, intensityWrites, List.map_cons, List.map_nil]
  intro x hx hy
  simp only [List.mem_cons, List.not_mem_nil, or_false] at hx hy
  rcases hx with rfl | rfl | rfl <;> simp at hy <;> omega

/-- The stored value at a row and column. -/
theorem applyWrites_all (n : ℕ) (win W X Y Z : List ℝ) (t : ℕ) : let I := applyWrites (allWrites n win W X Y Z)
    if win.length / 2 ≤ t ∧ t - win.length / 2 < n - win.length then
      I (t, 0) = windowed win W X (t - win.length / 2) ∧ I (t, 1) = windowed win W Y (t - win.length / 2) ∧ I (t, 2) = windowed win W Z (t - win.length / 2)
    else ∀ c, I (t, c) = 0 := by
  intro I
  have hn := allWrites_nodup n win W X Y Z
  split_ifs with h
  · have e : t - win.length / 2 + win.length / 2 = t := by omega
    have hm : ∀ x ∈ intensityWrites win W X Y Z (t - win.length / 2), x ∈ allWrites n win W X Y Z := fun x hx =>
      List.mem_flatMap.mpr ⟨_, List.mem_range.mpr h.2, hx⟩
    refine ⟨fold_mem _ _ _ _ hn (hm _ ?_), fold_mem _ _ _ _ hn (hm _ ?_), fold_mem _ _ _ _ hn (hm _ ?_)⟩ <;>
    · unfold intensityWrites
      rw [e]
      simp
  · intro c
    refine fold_not_mem _ _ _ fun hmem => h ?_
    obtain ⟨x, hx, hxa⟩ := List.mem_map.mp hmem
    obtain ⟨i, hi, hxi⟩ := List.mem_flatMap.mp hx
    rw [List.mem_range] at hi
    have h1 : x.1.1 = i + win.length / 2 := by
      simp only [intensityWrites, List.mem_cons, List.not_mem_nil, or_false] at hxi
      rcases hxi with rfl | rfl | rfl <;> rfl
    have h2 : x.1.1 = t := by rw [hxa]
    omega

theorem hanning_length (M : ℕ) : (hanning M).length = M := by
  unfold hanning
  split_ifs with h
  · simp [h]
  · simp

theorem hanning_sin (M i : ℕ) (hM : 2 ≤ M) (hi : i < M) : (hanning M).getD i 0 = sin (π * i / (M - 1)) ^ 2 := by
  unfold hanning
  have h0 : ((M : ℝ) - 1) ≠ 0 := by
    have : (2 : ℝ) ≤ M := by exact_mod_cast hM
    linarith
  rw [if_neg (by omega), List.getD_eq_getElem?_getD, List.getElem?_map, List.getElem?_range hi, Option.map_some, Option.getD_some, Real.sin_sq_eq_half_sub,
    show π * (2 * (i : ℝ) + 1 - M) / (M - 1) = 2 * (π * i / (M - 1)) - π by field_simp; ring, Real.cos_sub_pi]
  ring

theorem trapz_range (f : ℕ → ℝ) (m : ℕ) : trapz ((List.range (m + 1)).map f) = ∑ k ∈ Finset.range m, (f k + f (k + 1)) / 2 := by
  unfold trapz
  have e : List.zipWith (fun a b : ℝ => (a + b) / 2) ((List.range (m + 1)).map f) ((List.range (m + 1)).map f).tail = (List.range m).map fun k => (f k + f (k + 1)) / 2 :=
    List.ext_getElem (by simp) fun i h1 h2 => by simp
  rw [e, Finset.sum_range, ← List.sum_ofFn, List.ofFn_eq_map, ← List.map_coe_finRange_eq_range, List.map_map]
  rfl

/-- The integral of a window that fits. -/
theorem windowed_sum (N i : ℕ) (W V : List ℝ) (hN : 2 ≤ N) (hW : i + N ≤ W.length) (hV : i + N ≤ V.length) :
    windowed (hanning N) W V i = ∑ k ∈ Finset.range N, sin (π * k / (N - 1)) ^ 2 * W.getD (i + k) 0 * V.getD (i + k) 0 := by
  obtain ⟨m, rfl⟩ : ∃ m, N = m + 2 := ⟨N - 2, by omega⟩
  set f : ℕ → ℝ := fun k => sin (π * k / ((m + 2 : ℕ) - 1)) ^ 2 * W.getD (i + k) 0 * V.getD (i + k) 0 with hf
  have e : List.zipWith (· * ·) (List.zipWith (· * ·) (hanning (m + 2)) ((W.drop i).take (hanning (m + 2)).length)) ((V.drop i).take (hanning (m + 2)).length) =
      (List.range (m + 1 + 1)).map f := by
    rw [hanning_length]
    refine List.ext_getElem (by simp [hanning_length]; omega) fun k h1 h2 => ?_
    have hk : k < m + 2 := by simp at h2; omega
    have hh := hanning_sin (m + 2) k (by omega) hk
    rw [List.getD_eq_getElem?_getD, List.getElem?_eq_getElem (by rw [hanning_length]; exact hk), Option.getD_some] at hh
    simp only [List.getElem_zipWith, List.getElem_take, List.getElem_drop, List.getElem_map, List.getElem_range, hf]
    rw [hh, List.getD_eq_getElem?_getD, List.getElem?_eq_getElem (by omega), Option.getD_some, List.getD_eq_getElem?_getD, List.getElem?_eq_getElem (by omega), Option.getD_some]
  unfold windowed
  rw [e, trapz_range]
  have h0 : f 0 = 0 := by simp [hf]
  have h1 : f (m + 1) = 0 := by
    have : π * ((m + 1 : ℕ) : ℝ) / (((m + 2 : ℕ) : ℝ) - 1) = π := by
      have : (m : ℝ) + 1 ≠ 0 := by positivity
      push_cast
      rw [show (m : ℝ) + 2 - 1 = m + 1 by ring]
      field_simp
    simp only [hf]
    rw [this]
    simp
  have s1 : ∑ k ∈ Finset.range (m + 2), f k = ∑ k ∈ Finset.range (m + 1), f k := by rw [Finset.sum_range_succ, h1, add_zero]
  have s2 : ∑ k ∈ Finset.range (m + 2), f k = ∑ k ∈ Finset.range (m + 1), f (k + 1) := by rw [Finset.sum_range_succ', h0, add_zero]
  rw [← Finset.sum_div, Finset.sum_add_distrib, ← s1, ← s2]
  ring

/-- **C63**: `pseudo_intensity` returns the same for every number of jobs (at least one, `None` meaning the number of processors) and every order in
which the workers store their rows. -/
theorem C63_schedule (cpus cpus' : ℕ) (W X Y Z : List ℝ) (winLen order : ℕ) (jobs jobs' : Option ℤ) (hj : 1 ≤ jobs.getD cpus) (hj' : 1 ≤ jobs'.getD cpus')
    (out out' : Py (List (ℝ × ℝ × ℝ))) (hr : PseudoIntensity cpus W X Y Z winLen order jobs out) (hr' : PseudoIntensity cpus' W X Y Z winLen order jobs' out') :
    out = out' := by
  have key : ∀ (c : ℕ) (j : Option ℤ) (o : Py (List (ℝ × ℝ × ℝ))), 1 ≤ j.getD (c : ℤ) → PseudoIntensity c W X Y Z winLen order j o →
      o = if winLen % 2 = 0 then .error .assertionError else intensityOut W.length order (applyWrites (allWrites W.length (hanning winLen) W X Y Z)) := by
    intro c j o hc ho
    cases ho with
    | evenWindow h => rw [if_pos h]
    | noJobs h hn => omega
    | serial h _ => rw [if_neg (by omega)]
    | parallel h _ sched hs => rw [if_neg (by omega), applyWrites_perm _ _ (allWrites_nodup _ _ _ _ _ _) hs]
  rw [key cpus jobs out hj hr, key cpus' jobs' out' hj' hr']

/-- Four workers and as many as there are processors. -/
example : 1 ≤ (some 4 : Option ℤ).getD (8 : ℕ) ∧ 1 ≤ (none : Option ℤ).getD (8 : ℕ) := by decide

/-- **C63**: without smoothing, sample `t` is the spherical form of the integral of `W·(X, Y, Z)` over the Hann window centred on `t`, wherever the window
fits and does not reach the last sample; elsewhere (also everywhere when the signal is not longer than the window) it is that of the zero vector.
Partial: the window that ends exactly on the last sample is left out by the code, see `C63_last_fails`. -/
theorem C63_values_partial (cpus : ℕ) (W X Y Z : List ℝ) (winLen : ℕ) (jobs : Option ℤ) (hj : 1 ≤ jobs.getD cpus) (hodd : winLen % 2 = 1) (h3 : 3 ≤ winLen)
    (hX : X.length = W.length) (hY : Y.length = W.length) (hZ : Z.length = W.length)
    (out : Py (List (ℝ × ℝ × ℝ))) (hr : PseudoIntensity cpus W X Y Z winLen 0 jobs out) :
    ∃ L, out = .ok L ∧ L.length = W.length ∧ ∀ (t : ℕ) (ht : t < L.length),
      let J : List ℝ → ℝ := fun V => ∑ k ∈ Finset.range winLen,
        sin (π * k / (winLen - 1)) ^ 2 * W.getD (t - winLen / 2 + k) 0 * V.getD (t - winLen / 2 + k) 0
      L[t] = if winLen / 2 ≤ t ∧ t + winLen / 2 + 1 < W.length then Utils.cart2sph (J X) (J Y) (J Z) false true else Utils.cart2sph 0 0 0 false true := by
  have hs : PseudoIntensity 1 W X Y Z winLen 0 (some 1) _ := .serial hodd rfl
  have ho := C63_schedule cpus 1 W X Y Z winLen 0 jobs (some 1) hj (by simp) _ _ hr hs
  have hout : ∀ I, intensityOut W.length 0 I = .ok ((List.range W.length).map fun t => Utils.cart2sph (I (t, 0)) (I (t, 1)) (I (t, 2)) false true) := fun I => by
    unfold intensityOut
    exact if_pos rfl
  rw [hout] at ho
  refine ⟨_, ho, by simp, ?_⟩
  intro t ht J
  have ht' : t < W.length := by simpa using ht
  have hv := applyWrites_all W.length (hanning winLen) W X Y Z t
  rw [hanning_length] at hv
  simp only [List.getElem_map, List.getElem_range]
  by_cases h : winLen / 2 ≤ t ∧ t + winLen / 2 + 1 < W.length
  · rw [if_pos (by omega)] at hv
    rw [if_pos h, hv.1, hv.2.1, hv.2.2]
    simp only [J]
    rw [windowed_sum _ _ _ _ (by omega) (by omega) (by omega), windowed_sum _ _ _ _ (by omega) (by omega) (by omega),
      windowed_sum _ _ _ _ (by omega) (by omega) (by omega)]
  · rw [if_neg (by omega)] at hv
    rw [if_neg h, hv, hv, hv]

/-- The default window on five hundred samples. -/
example : 33 % 2 = 1 ∧ 3 ≤ 33 ∧ (33 / 2 ≤ 100 ∧ 100 + 33 / 2 + 1 < (List.replicate 500 (0 : ℝ)).length) := by rw [List.length_replicate]; omega

/-- **C63**, last window: on three equal samples with a window of three, the whole window fits around sample 1, its integral is 1, but the intensity returned
for sample 1 has length zero. -/
theorem C63_last_fails (cpus : ℕ) (jobs : Option ℤ) (hj : 1 ≤ jobs.getD cpus) (out : Py (List (ℝ × ℝ × ℝ)))
    (hr : PseudoIntensity cpus [1, 1, 1] [1, 1, 1] [0, 0, 0] [0, 0, 0] 3 0 jobs out) :
    (∑ k ∈ Finset.range 3, sin (π * k / ((3 : ℕ) - 1)) ^ 2 * ([1, 1, 1] : List ℝ).getD k 0 * ([1, 1, 1] : List ℝ).getD k 0) = 1 ∧
    ∃ L, out = .ok L ∧ ∀ x ∈ L, x.2.2 = 0 := by
  constructor
  · simp [Finset.sum_range_succ]
    norm_num
  · obtain ⟨L, hL, hlen, hv⟩ := C63_values_partial cpus [1, 1, 1] [1, 1, 1] [0, 0, 0] [0, 0, 0] 3 jobs hj rfl le_rfl rfl rfl rfl out hr
    refine ⟨L, hL, fun x hx => ?_⟩
    obtain ⟨t, ht, rfl⟩ := List.mem_iff_getElem.mp hx
    have ht3 : t < 3 := by simpa [hlen] using ht
    rw [hv t ht, if_neg (by simp)]
    simp [Utils.cart2sph]

/-- There is such an execution. -/
example : ∃ out, PseudoIntensity 8 [1, 1, 1] [1, 1, 1] [0, 0, 0] [0, 0, 0] 3 0 none out := ⟨_, .parallel rfl (by decide) _ (List.Perm.refl _)⟩

/-- **C63**: an even window length or an even positive smoothing order raises `AssertionError`; fewer than one job raises `ValueError`. -/
theorem C63_reject (cpus : ℕ) (W X Y Z : List ℝ) (winLen order : ℕ) (jobs : Option ℤ) (out : Py (List (ℝ × ℝ × ℝ)))
    (hr : PseudoIntensity cpus W X Y Z winLen order jobs out) :
    (winLen % 2 = 0 → out = .error .assertionError) ∧ (winLen % 2 = 1 → jobs.getD cpus < 1 → out = .error .valueError) ∧
    (1 ≤ jobs.getD cpus → order ≠ 0 → order % 2 = 0 → out = .error .assertionError) := by
  have ho : ∀ I, order ≠ 0 → order % 2 = 0 → intensityOut W.length order I = .error .assertionError := fun I h0 h2 => by
    unfold intensityOut
    simp only [if_neg h0, if_pos h2]
  refine ⟨fun h => ?_, fun h hj => ?_, fun hj h0 h2 => ?_⟩
  · cases hr <;> first | rfl | omega
  · cases hr <;> first | rfl | omega
  · cases hr with
    | evenWindow h => rfl
    | noJobs h hn => omega
    | serial h _ => exact ho _ h0 h2
    | parallel h _ sched hs => exact ho _ h0 h2

example : PseudoIntensity 8 [1] [1] [1] [1] 32 5 (some 2) (.error .assertionError) := .evenWindow rfl

end Verif.Props
