import Verif.Props.AnalysisTurned

/-! What the directions of `pseudo_intensity` depend on, and plane waves: C158. -/

namespace Verif.Props

open Verif.Utils Verif.Sph Verif.Parsa Verif.Decoder Finset Real

/-- The smoothed intensity of sample `t`, away from the borders: the mean of the neighbours weighted with the Hann window. -/
theorem smooth_sum {order n : ℕ} (hodd : order % 2 = 1) (I : ℕ × Fin 3 → ℝ) (c : Fin 3) {t : ℕ} (h1 : order / 2 ≤ t) (h2 : t + order / 2 < n) :
    (smoothColumn order ((List.range n).map fun t => I (t, c))).getD t 0 = ∑ j ∈ Finset.range order, (hanning order).getD j 0 * I (t + order / 2 - j, c) := by
  have key : ∀ x : List ℝ, (smoothColumn order x).getD t 0 = if t < x.length then Sig.convAt x (hanning order) (((hanning order).length - 1) / 2 + t) else 0 := by
    intro x
    unfold smoothColumn Sig.convKeep
    rw [← Sig.convFull_getD]
    simp only [List.getD_eq_getElem?_getD, List.getElem?_take, List.getElem?_drop]
    split_ifs <;> rfl
  rw [key, hanning_length, if_pos (by simp; omega), Sig.convAt_comm]
  unfold Sig.convAt
  have hsub : Finset.range order ⊆ Finset.range ((order - 1) / 2 + t + 1) := Finset.range_subset_range.2 (by omega)
  rw [← Finset.sum_subset hsub fun k _ hk => by
    rw [Sig.getD_out (by rw [hanning_length]; simpa using hk), zero_mul]]
  refine Finset.sum_congr rfl fun j hj => ?_
  rw [Finset.mem_range] at hj
  have e : (order - 1) / 2 + t - j = t + order / 2 - j := by omega
  rw [e, List.getD_eq_getElem?_getD, List.getD_eq_getElem?_getD, List.getElem?_map, List.getElem?_range (by omega)]
  rfl

/-- The result of `pseudo_intensity`, away from the borders. -/
theorem intensity_value (cpus : ℕ) (W X Y Z : List ℝ) (winLen order : ℕ) (jobs : Option ℤ) (hj : 1 ≤ jobs.getD cpus) (hodd : winLen % 2 = 1)
    (ho : order = 0 ∨ order % 2 = 1) (out : Py (List (ℝ × ℝ × ℝ))) (hr : PseudoIntensity cpus W X Y Z winLen order jobs out) :
    ∃ l : List (ℝ × ℝ × ℝ), out = .ok l ∧ l.length = W.length ∧ ∀ t, order / 2 ≤ t → t + order / 2 < W.length →
      let I := applyWrites (allWrites W.length (hanning winLen) W X Y Z)
      let V : Fin 3 → ℝ := fun c => if order = 0 then I (t, c) else ∑ j ∈ Finset.range order, (hanning order).getD j 0 * I (t + order / 2 - j, c)
      l[t]? = some (cart2sph (V 0) (V 1) (V 2) false true) := by
  have h1 := C63_schedule cpus 1 W X Y Z winLen order jobs (some 1) hj le_rfl _ _ hr (.serial hodd rfl)
  unfold intensityOut at h1
  simp only at h1
  by_cases h0 : order = 0
  · rw [if_pos h0] at h1
    refine ⟨_, h1, by simp, fun t _ h2 => ?_⟩
    simp only [if_pos h0]
    rw [List.getElem?_map, List.getElem?_range (by omega)]
    rfl
  · have hod : order % 2 = 1 := by omega
    rw [if_neg h0, if_neg (by omega)] at h1
    refine ⟨_, h1, by simp, fun t h3 h2 => ?_⟩
    simp only [if_neg h0]
    rw [List.getElem?_map, List.getElem?_range (by omega), Option.map_some, smooth_sum hod _ 0 h3 h2, smooth_sum hod _ 1 h3 h2, smooth_sum hod _ 2 h3 h2]

theorem windowed_congr (win W X W' X' : List ℝ) (i i' : ℕ) (hW : ∀ k < win.length, W[i + k]? = W'[i' + k]?) (hX : ∀ k < win.length, X[i + k]? = X'[i' + k]?) :
    windowed win W X i = windowed win W' X' i' := by
  have key : ∀ (U U' : List ℝ), (∀ k < win.length, U[i + k]? = U'[i' + k]?) → (U.drop i).take win.length = (U'.drop i').take win.length := by
    intro U U' h
    refine List.ext_getElem? fun k => ?_
    rw [List.getElem?_take, List.getElem?_take]
    split_ifs with hk
    · rw [List.getElem?_drop, List.getElem?_drop, h k hk]
    · rfl
  unfold windowed
  rw [key W W' hW, key X X' hX]

/-- **C158** What `pseudo_intensity` returns for a sample depends only on the samples around it, at most half a window and half the smoothing away, not on
the rest of the recordings, their length, the position within them, the number of jobs or the schedule. -/
theorem C158_local (cpus cpus' : ℕ) (W X Y Z W' X' Y' Z' : List ℝ) (winLen order : ℕ) (jobs jobs' : Option ℤ) (hj : 1 ≤ jobs.getD cpus) (hj' : 1 ≤ jobs'.getD cpus')
    (hodd : winLen % 2 = 1) (ho : order = 0 ∨ order % 2 = 1) (out out' : Py (List (ℝ × ℝ × ℝ)))
    (hr : PseudoIntensity cpus W X Y Z winLen order jobs out) (hr' : PseudoIntensity cpus' W' X' Y' Z' winLen order jobs' out')
    (t t' : ℕ) (h1 : winLen / 2 + order / 2 ≤ t) (h2 : t + (winLen / 2 + order / 2) + 1 < W.length) (h1' : winLen / 2 + order / 2 ≤ t')
    (h2' : t' + (winLen / 2 + order / 2) + 1 < W'.length)
    (hs : ∀ a b : ℕ, a + t' = b + t → t - (winLen / 2 + order / 2) ≤ a → a ≤ t + (winLen / 2 + order / 2) →
      W[a]? = W'[b]? ∧ X[a]? = X'[b]? ∧ Y[a]? = Y'[b]? ∧ Z[a]? = Z'[b]?) :
    ∃ l l' : List (ℝ × ℝ × ℝ), ∃ s, out = .ok l ∧ out' = .ok l' ∧ l[t]? = some s ∧ l'[t']? = some s := by
  obtain ⟨l, e, -, hv⟩ := intensity_value cpus W X Y Z winLen order jobs hj hodd ho out hr
  obtain ⟨l', e', -, hv'⟩ := intensity_value cpus' W' X' Y' Z' winLen order jobs' hj' hodd ho out' hr'
  refine ⟨l, l', _, e, e', hv t (by omega) (by omega), ?_⟩
  rw [hv' t' (by omega) (by omega)]
  obtain ⟨I, hI⟩ : ∃ I, I = applyWrites (allWrites W.length (hanning winLen) W X Y Z) := ⟨_, rfl⟩
  obtain ⟨I', hI'⟩ : ∃ I', I' = applyWrites (allWrites W'.length (hanning winLen) W' X' Y' Z') := ⟨_, rfl⟩
  have key : ∀ p p' : ℕ, p + t' = p' + t → t - order / 2 ≤ p → p ≤ t + order / 2 → ∀ c, I' (p', c) = I (p, c) := by
    intro p p' hp hp1 hp2 c
    have a := applyWrites_all W.length (hanning winLen) W X Y Z p
    have a' := applyWrites_all W'.length (hanning winLen) W' X' Y' Z' p'
    rw [hanning_length] at a a'
    rw [if_pos (by omega), ← hI] at a
    rw [if_pos (by omega), ← hI'] at a'
    have hw := fun k (hk : k < (hanning winLen).length) => hs (p - winLen / 2 + k) (p' - winLen / 2 + k) (by omega) (by omega)
      (by rw [hanning_length] at hk; omega)
    fin_cases c
    · exact a'.1.trans ((windowed_congr _ _ _ _ _ _ _ (fun k hk => (hw k hk).1) fun k hk => (hw k hk).2.1).symm.trans a.1.symm)
    · exact a'.2.1.trans ((windowed_congr _ _ _ _ _ _ _ (fun k hk => (hw k hk).1) fun k hk => (hw k hk).2.2.1).symm.trans a.2.1.symm)
    · exact a'.2.2.trans ((windowed_congr _ _ _ _ _ _ _ (fun k hk => (hw k hk).1) fun k hk => (hw k hk).2.2.2).symm.trans a.2.2.symm)
  have hV : ∀ c : Fin 3, (if order = 0 then I' (t', c) else ∑ j ∈ Finset.range order, (hanning order).getD j 0 * I' (t' + order / 2 - j, c))
      = if order = 0 then I (t, c) else ∑ j ∈ Finset.range order, (hanning order).getD j 0 * I (t + order / 2 - j, c) := by
    intro c
    split_ifs with h0
    · exact key t t' (by omega) (by omega) (by omega) c
    · refine Finset.sum_congr rfl fun j hjr => ?_
      rw [Finset.mem_range] at hjr
      rw [key (t + order / 2 - j) (t' + order / 2 - j) (by omega) (by omega) (by omega)]
  simp only [← hI, ← hI', hV]

/-- **C158** Whatever precedes and follows a recording, the directions within it are the same, delayed. -/
theorem C158_delay (cpus cpus' : ℕ) (W X Y Z : List ℝ) (pre post : Fin 4 → List ℝ) (D : ℕ) (hp : ∀ c, (pre c).length = D) (hX : X.length = W.length)
    (hY : Y.length = W.length) (hZ : Z.length = W.length) (winLen order : ℕ) (jobs jobs' : Option ℤ) (hj : 1 ≤ jobs.getD cpus) (hj' : 1 ≤ jobs'.getD cpus')
    (hodd : winLen % 2 = 1) (ho : order = 0 ∨ order % 2 = 1) (out out' : Py (List (ℝ × ℝ × ℝ)))
    (hr : PseudoIntensity cpus W X Y Z winLen order jobs out)
    (hr' : PseudoIntensity cpus' (pre 0 ++ W ++ post 0) (pre 1 ++ X ++ post 1) (pre 2 ++ Y ++ post 2) (pre 3 ++ Z ++ post 3) winLen order jobs' out')
    (t : ℕ) (h1 : winLen / 2 + order / 2 ≤ t) (h2 : t + (winLen / 2 + order / 2) + 1 < W.length) :
    ∃ l l' : List (ℝ × ℝ × ℝ), ∃ s, out = .ok l ∧ out' = .ok l' ∧ l[t]? = some s ∧ l'[D + t]? = some s := by
  refine C158_local cpus cpus' W X Y Z _ _ _ _ winLen order jobs jobs' hj hj' hodd ho out out' hr hr' t (D + t) h1 h2 (by omega)
    (by rw [List.length_append, List.length_append, hp]; omega) fun a b hab ha1 ha2 => ?_
  have key : ∀ (c : Fin 4) (V : List ℝ), V.length = W.length → V[a]? = (pre c ++ V ++ post c)[b]? := by
    intro c V hV
    have hpc := hp c
    have hb : b = D + a := by omega
    rw [hb, List.append_assoc, List.getElem?_append_right (by omega), hpc, Nat.add_sub_cancel_left, List.getElem?_append_left (by omega)]
  exact ⟨key 0 W rfl, key 1 X hX, key 2 Y hY, key 3 Z hZ⟩

/-- The default window and smoothing on five hundred samples, another two hundred before them and three hundred after them. -/
example (W X Y Z : List ℝ) (hW : W.length = 500) (hX : X.length = 500) (hY : Y.length = 500) (hZ : Z.length = 500) :
    ∃ out out' : Py (List (ℝ × ℝ × ℝ)), PseudoIntensity 8 W X Y Z 33 5 (some 1) out ∧
      PseudoIntensity 8 (List.replicate 200 1 ++ W ++ List.replicate 300 2) (List.replicate 200 1 ++ X ++ List.replicate 300 2)
        (List.replicate 200 1 ++ Y ++ List.replicate 300 2) (List.replicate 200 1 ++ Z ++ List.replicate 300 2) 33 5 none out' ∧
      ∃ l l' : List (ℝ × ℝ × ℝ), ∃ s, out = .ok l ∧ out' = .ok l' ∧ l[100]? = some s ∧ l'[200 + 100]? = some s := by
  refine ⟨_, _, .serial (by norm_num) rfl, .parallel (by norm_num) (by decide) _ (List.Perm.refl _), ?_⟩
  exact C158_delay 8 8 W X Y Z (fun _ => List.replicate 200 1) (fun _ => List.replicate 300 2) 200 (fun _ => List.length_replicate) (by omega) (by omega) (by omega) 33 5 (some 1) none
    (by decide) (by decide) (by norm_num) (by norm_num) _ _ (.serial (by norm_num) rfl) (.parallel (by norm_num) (by decide) _ (List.Perm.refl _)) 100 (by norm_num)
    (by omega)

theorem hanning_getD_nonneg (M i : ℕ) : 0 ≤ (hanning M).getD i 0 := by
  by_cases hi : i < M
  · rcases Nat.lt_or_ge M 2 with h | h
    · obtain rfl : M = 1 := by omega
      obtain rfl : i = 0 := by omega
      simp [hanning]
    · rw [hanning_sin M i h hi]
      positivity
  · rw [Sig.getD_out (by rw [hanning_length]; omega)]

theorem hanning_mid (M : ℕ) (hodd : M % 2 = 1) : (hanning M).getD (M / 2) 0 = 1 := by
  rcases Nat.lt_or_ge M 2 with h | h
  · obtain rfl : M = 1 := by omega
    simp [hanning]
  · rw [hanning_sin M _ h (by omega)]
    obtain ⟨k, rfl⟩ : ∃ k, M = 2 * k + 1 := ⟨M / 2, by omega⟩
    have e : (2 * k + 1) / 2 = k := by omega
    have hk : (k : ℝ) ≠ 0 := by
      have : k ≠ 0 := by omega
      exact_mod_cast this
    rw [e, show π * (k : ℝ) / (((2 * k + 1 : ℕ) : ℝ) - 1) = π / 2 by push_cast; field_simp; ring]
    simp

theorem windowed_nonneg (win W : List ℝ) (hw : ∀ k, 0 ≤ win.getD k 0) (i : ℕ) : 0 ≤ windowed win W W i := by
  rw [windowed_range win W W rfl]
  cases min win.length (W.length - i) with
  | zero => simp [trapz]
  | succ m =>
    rw [trapz_range]
    refine Finset.sum_nonneg fun k _ => ?_
    have h1 := mul_nonneg (hw k) (mul_self_nonneg (W.getD (i + k) 0))
    have h2 := mul_nonneg (hw (k + 1)) (mul_self_nonneg (W.getD (i + (k + 1)) 0))
    have : win.getD k 0 * W.getD (i + k) 0 * W.getD (i + k) 0 + win.getD (k + 1) 0 * W.getD (i + (k + 1)) 0 * W.getD (i + (k + 1)) 0
        = win.getD k 0 * (W.getD (i + k) 0 * W.getD (i + k) 0) + win.getD (k + 1) 0 * (W.getD (i + (k + 1)) 0 * W.getD (i + (k + 1)) 0) := by ring
    rw [this]
    linarith

/-- **C158** The pseudo intensity of a plane wave encoded by `src_to_b`: away from the borders the radius is at least the energy within the window (equal to
it without smoothing), and wherever it is at least `10e-15` the direction is that of the source. -/
theorem C158_plane_wave (cpus : ℕ) (sig : List ℝ) (azi zen : ℝ) (W X Y Z : List ℝ) (hb : srcToB sig [(azi, zen)] = [W, X, Y, Z]) (winLen order : ℕ) (jobs : Option ℤ)
    (hj : 1 ≤ jobs.getD cpus) (hodd : winLen % 2 = 1) (h3 : 3 ≤ winLen) (ho : order = 0 ∨ order % 2 = 1) (out : Py (List (ℝ × ℝ × ℝ)))
    (hr : PseudoIntensity cpus W X Y Z winLen order jobs out) (t : ℕ) (h1 : winLen / 2 + order / 2 ≤ t) (h2 : t + (winLen / 2 + order / 2) + 1 < sig.length) :
    ∃ (l : List (ℝ × ℝ × ℝ)) (a z r : ℝ), out = .ok l ∧ l.length = sig.length ∧ l[t]? = some (a, z, r) ∧
      ∑ k ∈ Finset.range winLen, sin (π * k / (winLen - 1)) ^ 2 * sig.getD (t - winLen / 2 + k) 0 ^ 2 ≤ r ∧
      (order = 0 → r = ∑ k ∈ Finset.range winLen, sin (π * k / (winLen - 1)) ^ 2 * sig.getD (t - winLen / 2 + k) 0 ^ 2) ∧
      (10e-15 ≤ r → dirVec a z = dirVec azi zen) := by
  obtain ⟨d, hd⟩ : ∃ d : Vec3, d = dirVec azi zen := ⟨_, rfl⟩
  have hbb : W = sig ∧ X = sig.map (d 0 * ·) ∧ Y = sig.map (d 1 * ·) ∧ Z = sig.map (d 2 * ·) := by
    unfold srcToB at hb
    simp only [List.flatMap_cons, List.flatMap_nil, List.append_nil, List.map_cons, List.map_nil, List.cons.injEq, and_true, one_mul, List.map_id'] at hb
    obtain ⟨b1, b2, b3, b4⟩ := hb
    refine ⟨b1.symm, ?_, ?_, ?_⟩
    · rw [← b2, hd]; simp [sph2cart, dirVec]
    · rw [← b3, hd]; simp [sph2cart, dirVec]
    · rw [← b4, hd]; simp [sph2cart, dirVec]
  obtain ⟨rfl, rfl, rfl, rfl⟩ := hbb
  obtain ⟨l, e, e2, hv⟩ := intensity_value cpus W _ _ _ winLen order jobs hj hodd ho out hr
  have hvt := hv t (by omega) (by omega)
  obtain ⟨I, hI⟩ : ∃ I, I = applyWrites (allWrites W.length (hanning winLen) W (W.map (d 0 * ·)) (W.map (d 1 * ·)) (W.map (d 2 * ·))) := ⟨_, rfl⟩
  have hwin : ∀ (c : ℝ) (i : ℕ), windowed (hanning winLen) W (W.map (c * ·)) i = c * windowed (hanning winLen) W W i := by
    intro c i
    have h0 := trapz_lin (min (hanning winLen).length (W.length - i)) c 0 0 (fun k => (hanning winLen).getD k 0 * W.getD (i + k) 0 * W.getD (i + k) 0) (fun _ => 0) (fun _ => 0)
    rw [windowed_range _ W _ (by simp), windowed_range _ W W rfl]
    simp only [mul_zero, zero_mul, add_zero] at h0
    rw [← h0]
    congr 1
    refine List.map_congr_left fun k hk => ?_
    have : (W.map (c * ·)).getD (i + k) 0 = c * W.getD (i + k) 0 := by
      simp only [List.getD_eq_getElem?_getD, List.getElem?_map]
      cases W[i + k]? <;> simp
    rw [this]
    ring
  obtain ⟨E, hE⟩ : ∃ E : ℕ → ℝ, E = fun p => if winLen / 2 ≤ p ∧ p - winLen / 2 < W.length - winLen then windowed (hanning winLen) W W (p - winLen / 2) else 0 := ⟨_, rfl⟩
  have hIE : ∀ p c, I (p, c) = d c * E p := by
    intro p c
    have a := applyWrites_all W.length (hanning winLen) W (W.map (d 0 * ·)) (W.map (d 1 * ·)) (W.map (d 2 * ·)) p
    rw [hanning_length] at a
    simp only [hE]
    split_ifs at a ⊢ with hc
    · rw [← hI] at a
      fin_cases c
      · exact a.1.trans (hwin _ _)
      · exact a.2.1.trans (hwin _ _)
      · exact a.2.2.trans (hwin _ _)
    · rw [hI, a c, mul_zero]
  have hE0 : ∀ p, 0 ≤ E p := by
    intro p
    simp only [hE]
    split_ifs
    · exact windowed_nonneg _ _ (hanning_getD_nonneg winLen) _
    · exact le_rfl
  have hEt : E t = ∑ k ∈ Finset.range winLen, sin (π * k / (winLen - 1)) ^ 2 * W.getD (t - winLen / 2 + k) 0 ^ 2 := by
    simp only [hE]
    rw [if_pos (by omega), windowed_sum winLen _ W W (by omega) (by omega) (by omega)]
    exact Finset.sum_congr rfl fun k _ => by ring
  obtain ⟨r, hr'⟩ : ∃ r : ℝ, r = if order = 0 then E t else ∑ j ∈ Finset.range order, (hanning order).getD j 0 * E (t + order / 2 - j) := ⟨_, rfl⟩
  have hV : ∀ c : Fin 3, (if order = 0 then I (t, c) else ∑ j ∈ Finset.range order, (hanning order).getD j 0 * I (t + order / 2 - j, c)) = r * d c := by
    intro c
    rw [hr']
    split_ifs with h0
    · rw [hIE, mul_comm]
    · rw [Finset.sum_mul]
      exact Finset.sum_congr rfl fun j _ => by rw [hIE]; ring
  have hle : E t ≤ r := by
    rw [hr']
    split_ifs with h0
    · exact le_rfl
    · have hod : order % 2 = 1 := by omega
      have := Finset.single_le_sum (f := fun j => (hanning order).getD j 0 * E (t + order / 2 - j)) (fun j _ => mul_nonneg (hanning_getD_nonneg _ _) (hE0 _))
        (Finset.mem_range.2 (show order / 2 < order by omega))
      simp only [hanning_mid order hod, one_mul, Nat.add_sub_cancel] at this
      exact this
  have hr0 : 0 ≤ r := (hE0 t).trans hle
  have hdd : d 0 ^ 2 + d 1 ^ 2 + d 2 ^ 2 = 1 := by
    rw [hd]
    simp only [dirVec, Matrix.cons_val_zero, Matrix.cons_val_one, Matrix.cons_val]
    nlinarith [Real.sin_sq_add_cos_sq azi, Real.sin_sq_add_cos_sq zen]
  have hnorm : √((r * d 0) ^ 2 + (r * d 1) ^ 2 + (r * d 2) ^ 2) = r := by
    rw [show (r * d 0) ^ 2 + (r * d 1) ^ 2 + (r * d 2) ^ 2 = r ^ 2 * (d 0 ^ 2 + d 1 ^ 2 + d 2 ^ 2) by ring, hdd, mul_one, Real.sqrt_sq hr0]
  simp only [← hI, hV] at hvt
  refine ⟨l, (cart2sph (r * d 0) (r * d 1) (r * d 2) false true).1, (cart2sph (r * d 0) (r * d 1) (r * d 2) false true).2.1, r, e, e2, ?_, by rw [← hEt]; exact hle, fun h0 => by rw [hr', if_pos h0, hEt], fun hr1 => ?_⟩
  · rw [hvt]
    refine congrArg some (Prod.ext rfl (Prod.ext rfl ?_))
    exact hnorm
  · have := C01_sph2cart_cart2sph (r * d 0) (r * d 1) (r * d 2) false true (by
      intro h0
      simp only [Prod.mk.injEq] at h0
      rw [h0.1, h0.2.1, h0.2.2] at hnorm
      norm_num at hnorm
      rw [← hnorm] at hr1
      norm_num at hr1) (fun _ => by rw [hnorm]; exact hr1)
    have hrr : (cart2sph (r * d 0) (r * d 1) (r * d 2) false true).2.2 = r := hnorm
    have h3 := Prod.mk.inj this
    have h4 := Prod.mk.inj h3.2
    rw [hrr] at h3 h4
    have hrp : 0 < r := lt_of_lt_of_le (by norm_num) hr1
    rw [← hd]
    funext c
    refine mul_left_cancel₀ hrp.ne' ?_
    fin_cases c
    · exact (mul_assoc _ _ _).symm.trans h3.1
    · exact (mul_assoc _ _ _).symm.trans h4.1
    · exact h4.2

/-- A constant signal from the front right below. -/
example : ∃ l a z r, PseudoIntensity 8 (List.replicate 100 1) ((List.replicate 100 1).map (cos 5 * sin 2 * ·)) ((List.replicate 100 1).map (sin 5 * sin 2 * ·))
    ((List.replicate 100 1).map (cos 2 * ·)) 3 5 (some 1) (.ok l) ∧ l[50]? = some (a, z, r) ∧ dirVec a z = dirVec 5 2 := by
  have hb : srcToB (List.replicate 100 1) [(5, 2)] = [List.replicate 100 1, (List.replicate 100 1).map (cos 5 * sin 2 * ·), (List.replicate 100 1).map (sin 5 * sin 2 * ·),
      (List.replicate 100 1).map (cos 2 * ·)] := by
    unfold srcToB
    simp [sph2cart]
  obtain ⟨l, a, z, r, e, -, h1, h2, -, h3⟩ := C158_plane_wave 8 (List.replicate 100 1) 5 2 _ _ _ _ hb 3 5 (some 1) (by decide) (by norm_num) (by norm_num) (by norm_num) _
    (.serial (by norm_num) rfl) 50 (by norm_num) (by simp)
  refine ⟨l, a, z, r, by rw [← e]; exact .serial (by norm_num) rfl, h1, h3 (le_trans ?_ h2)⟩
  rw [Finset.sum_range_succ, Finset.sum_range_succ, Finset.sum_range_one]
  have : π * ((1 : ℕ) : ℝ) / ((3 : ℕ) - 1) = π / 2 := by push_cast; ring
  rw [this, Real.sin_pi_div_two]
  have h0 : ∀ k : ℕ, k < 100 → (List.replicate 100 (1 : ℝ)).getD k 0 = 1 := fun k hk => by
    rw [List.getD_eq_getElem?_getD, List.getElem?_replicate, if_pos hk, Option.getD_some]
  rw [h0 _ (by norm_num), h0 _ (by norm_num), h0 _ (by norm_num)]
  nlinarith [sq_nonneg (sin (π * ((0 : ℕ) : ℝ) / ((3 : ℕ) - 1))), sq_nonneg (sin (π * ((2 : ℕ) : ℝ) / ((3 : ℕ) - 1)))]

end Verif.Props
