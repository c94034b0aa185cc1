import Verif.Model.SphereModes
import Verif.Proofs.PyList
import Mathlib.Analysis.SpecialFunctions.Trigonometric.Deriv
import Mathlib.Analysis.SpecialFunctions.Sqrt

/-!
C88: mode strength of the rigid sphere and binaural coloration compensation.
-/

namespace Verif.Props
open Real Verif.Sph

theorem sphJ_two {z : ℝ} (hz : z ≠ 0) (n : ℕ) : sphJ (n + 2) z = (2 * (n + 1) + 1) / z * sphJ (n + 1) z - sphJ n z := by
  rw [sphJ, if_neg hz]

theorem sphJ_zero {z : ℝ} (hz : z ≠ 0) : sphJ 0 z = sin z / z := by rw [sphJ, if_neg hz]

theorem sphJ_one {z : ℝ} (hz : z ≠ 0) : sphJ 1 z = sin z / z ^ 2 - cos z / z := by rw [sphJ, if_neg hz]

/-- Cross product of neighbouring orders. -/
theorem cross {z : ℝ} (hz : z ≠ 0) : ∀ n : ℕ, sphJ (n + 1) z * sphY n z - sphJ n z * sphY (n + 1) z = 1 / z ^ 2
  | 0 => by
    rw [sphJ_zero hz, sphJ_one hz, sphY, sphY]
    have := sin_sq_add_cos_sq z
    field_simp
    linear_combination z * this
  | n + 1 => by
    have ih := cross hz n
    rw [sphJ_two hz, sphY]
    linear_combination ih

/-- The Wronskian of the spherical Bessel functions. -/
theorem wronskian {z : ℝ} (hz : z ≠ 0) (n : ℕ) : sphJ n z * sphDeriv sphY n z - sphDeriv sphJ n z * sphY n z = 1 / z ^ 2 := by
  cases n with
  | zero =>
    have := cross hz 0
    simp only [sphDeriv]
    linear_combination this
  | succ n =>
    have := cross hz n
    simp only [sphDeriv]
    linear_combination this

/-- The derivative of the Hankel function never vanishes. -/
theorem hn2_ne_zero {z : ℝ} (hz : z ≠ 0) (n : ℕ) : sphHn2 n z true ≠ 0 := by
  intro h
  have hre := congrArg Complex.re h
  have him := congrArg Complex.im h
  simp only [sphHn2, if_true] at hre him
  simp at hre him
  have w := wronskian hz n
  rw [hre, him] at w
  simp at w
  exact hz (pow_eq_zero_iff (two_ne_zero)|>.1 w.symm)

theorem rigid_value {z : ℝ} (hz : z ≠ 0) (n : ℕ) :
    (sphJ n z : ℂ) - (((sphDeriv sphJ n z : ℝ) : ℂ) / sphHn2 n z true) * sphHn2 n z false = -Complex.I / ((z : ℂ) ^ 2 * sphHn2 n z true) := by
  have h := hn2_ne_zero hz n
  have hz' : (z : ℂ) ≠ 0 := by exact_mod_cast hz
  have w : (sphJ n z : ℂ) * (sphDeriv sphY n z : ℝ) - (sphDeriv sphJ n z : ℝ) * (sphY n z : ℂ) = 1 / (z : ℂ) ^ 2 := by
    exact_mod_cast wronskian hz n
  have h1 : (sphJ n z : ℂ) - (((sphDeriv sphJ n z : ℝ) : ℂ) / sphHn2 n z true) * sphHn2 n z false
      = ((sphJ n z : ℂ) * sphHn2 n z true - (sphDeriv sphJ n z : ℝ) * sphHn2 n z false) / sphHn2 n z true := by
    field_simp
  have h2 : (sphJ n z : ℂ) * sphHn2 n z true - (sphDeriv sphJ n z : ℝ) * sphHn2 n z false = -Complex.I * (1 / (z : ℂ) ^ 2) := by
    rw [← w]
    simp only [sphHn2, if_true, Bool.false_eq_true, if_false]
    ring
  rw [h1, h2]
  field_simp

/-- The values used for the derivatives are the derivatives of the functions. -/
theorem hasDerivAt_sphY {z : ℝ} (hz : z ≠ 0) : ∀ n : ℕ, HasDerivAt (sphY n) (sphDeriv sphY n z) z ∧ HasDerivAt (sphY (n + 1)) (sphDeriv sphY (n + 1) z) z
  | 0 => by
    constructor
    · have h := ((hasDerivAt_cos z).div (hasDerivAt_id z) hz).neg
      refine (h.congr_of_eventuallyEq (Filter.Eventually.of_forall fun x => rfl)).congr_deriv ?_
      simp only [sphDeriv, sphY, id]
      field_simp
      ring
    · have h1 := ((hasDerivAt_cos z).div ((hasDerivAt_id z).pow 2) (pow_ne_zero 2 hz)).neg
      have h2 := (hasDerivAt_sin z).div (hasDerivAt_id z) hz
      refine ((h1.sub h2).congr_of_eventuallyEq (Filter.Eventually.of_forall fun x => rfl)).congr_deriv ?_
      simp only [sphDeriv, sphY, id, Pi.pow_apply]
      field_simp
      ring
  | n + 1 => by
    obtain ⟨h0, h1⟩ := hasDerivAt_sphY hz n
    refine ⟨h1, ?_⟩
    have hc : HasDerivAt (fun x : ℝ => (2 * ((n : ℝ) + 1) + 1) / x) (-(2 * ((n : ℝ) + 1) + 1) / z ^ 2) z := by
      have := (hasDerivAt_inv hz).const_mul (2 * ((n : ℝ) + 1) + 1)
      refine (this.congr_of_eventuallyEq (Filter.Eventually.of_forall fun x => div_eq_mul_inv _ _)).congr_deriv ?_
      field_simp
    have h := (hc.mul h1).sub h0
    refine (h.congr_of_eventuallyEq (Filter.Eventually.of_forall fun x => rfl)).congr_deriv ?_
    cases n with
    | zero =>
      simp only [sphDeriv, sphY]
      push_cast
      field_simp
      ring
    | succ n =>
      simp only [sphDeriv, sphY]
      push_cast
      field_simp
      ring

theorem hasDerivAt_sphJ {z : ℝ} (hz : z ≠ 0) : ∀ n : ℕ, HasDerivAt (sphJ n) (sphDeriv sphJ n z) z ∧ HasDerivAt (sphJ (n + 1)) (sphDeriv sphJ (n + 1) z) z
  | 0 => by
    have hev : ∀ᶠ x in nhds z, x ≠ 0 := isOpen_ne.mem_nhds hz
    constructor
    · have h := (hasDerivAt_sin z).div (hasDerivAt_id z) hz
      refine (h.congr_of_eventuallyEq (hev.mono fun x hx => sphJ_zero hx)).congr_deriv ?_
      simp only [sphDeriv, sphJ_one hz, id]
      field_simp
      ring
    · have h1 := (hasDerivAt_sin z).div ((hasDerivAt_id z).pow 2) (pow_ne_zero 2 hz)
      have h2 := (hasDerivAt_cos z).div (hasDerivAt_id z) hz
      refine ((h1.sub h2).congr_of_eventuallyEq (hev.mono fun x hx => sphJ_one hx)).congr_deriv ?_
      simp only [sphDeriv, sphJ_one hz, sphJ_zero hz, id, Pi.pow_apply]
      field_simp
      ring
  | n + 1 => by
    have hev : ∀ᶠ x in nhds z, x ≠ 0 := isOpen_ne.mem_nhds hz
    obtain ⟨h0, h1⟩ := hasDerivAt_sphJ hz n
    refine ⟨h1, ?_⟩
    have hc : HasDerivAt (fun x : ℝ => (2 * ((n : ℝ) + 1) + 1) / x) (-(2 * ((n : ℝ) + 1) + 1) / z ^ 2) z := by
      have := (hasDerivAt_inv hz).const_mul (2 * ((n : ℝ) + 1) + 1)
      refine (this.congr_of_eventuallyEq (Filter.Eventually.of_forall fun x => div_eq_mul_inv _ _)).congr_deriv ?_
      field_simp
    have h := (hc.mul h1).sub h0
    refine (h.congr_of_eventuallyEq (hev.mono fun x hx => sphJ_two hx n)).congr_deriv ?_
    cases n with
    | zero =>
      simp only [sphDeriv, sphJ_two hz]
      push_cast
      field_simp
      ring
    | succ n =>
      simp only [sphDeriv, sphJ_two hz]
      push_cast
      field_simp
      ring

/-! ### Mode strength -/

/-- The rigid sphere has a finite, non-zero mode strength at every order and every `kr ≠ 0`, equal to `4π i^(n-1) / (kr² h_n⁽²⁾'(kr))`, where `h_n⁽²⁾ = j_n - i y_n`. -/
theorem C88_rigid (n : ℕ) (kr : ℝ) (hkr : kr ≠ 0) : ∃ b : ℂ, modeStrength n kr .rigid = .ok (some b) ∧ b ≠ 0 ∧
    (((deriv (sphJ n) kr : ℝ) : ℂ) - Complex.I * ((deriv (sphY n) kr : ℝ) : ℂ)) ≠ 0 ∧
    b = 4 * (π : ℂ) * Complex.I ^ n / (Complex.I * (kr : ℂ) ^ 2 * (((deriv (sphJ n) kr : ℝ) : ℂ) - Complex.I * ((deriv (sphY n) kr : ℝ) : ℂ))) := by
  have hJ : deriv (sphJ n) kr = sphDeriv sphJ n kr := (hasDerivAt_sphJ hkr n).1.deriv
  have hY : deriv (sphY n) kr = sphDeriv sphY n kr := (hasDerivAt_sphY hkr n).1.deriv
  have hh : sphHn2 n kr true = ((deriv (sphJ n) kr : ℝ) : ℂ) - Complex.I * ((deriv (sphY n) kr : ℝ) : ℂ) := by
    rw [hJ, hY]; simp [sphHn2]
  have h0 := hn2_ne_zero hkr n
  have hz' : (kr : ℂ) ≠ 0 := by exact_mod_cast hkr
  have hpi : (π : ℂ) ≠ 0 := by exact_mod_cast pi_ne_zero
  have hI := Complex.I_ne_zero
  refine ⟨4 * (π : ℂ) * Complex.I ^ n * (-Complex.I / ((kr : ℂ) ^ 2 * sphHn2 n kr true)), ?_, ?_, hh ▸ h0, ?_⟩
  · rw [← rigid_value hkr n]
    simp [modeStrength, hkr]
  · refine mul_ne_zero (mul_ne_zero (mul_ne_zero (by norm_num) hpi) (pow_ne_zero _ hI)) (div_ne_zero (neg_ne_zero.2 hI) (mul_ne_zero (pow_ne_zero _ hz') h0))
  · rw [← hh, ← Complex.inv_I]
    field_simp

/-- `C88_rigid`: order two at `kr = 3/2`. -/
example : ∃ b : ℂ, modeStrength 2 1.5 .rigid = .ok (some b) ∧ b ≠ 0 := by
  obtain ⟨b, h, h1, -⟩ := C88_rigid 2 1.5 (by norm_num)
  exact ⟨b, h, h1⟩

/-- The open sphere: `4π i^n j_n(kr)`; at the centre only order 0 is excited.  Any other sphere type is rejected. -/
theorem C88_open (n : ℕ) (kr : ℝ) :
    modeStrength n kr .openSphere = .ok (some (4 * (π : ℂ) * Complex.I ^ n * (sphJ n kr : ℂ))) ∧
    modeStrength n 0 .openSphere = .ok (some (if n = 0 then 4 * (π : ℂ) else 0)) ∧
    modeStrength n kr .other = .error .valueError := by
  refine ⟨rfl, ?_, rfl⟩
  rw [modeStrength, sphJ.eq_def, if_pos rfl]
  by_cases h : n = 0 <;> simp [h]

theorem modePower_pos (n : ℕ) {kr : ℝ} (hkr : kr ≠ 0) : ∃ m : ℝ, modePower n kr = some m ∧ 0 < m := by
  obtain ⟨b, hb, hb0, -⟩ := C88_rigid n kr hkr
  refine ⟨(2 * (n : ℝ) + 1) * ‖b‖ ^ 2, by simp [modePower, hb], ?_⟩
  have : 0 < ‖b‖ := norm_pos_iff.2 hb0
  positivity

theorem modePower_zero (n : ℕ) : modePower n 0 = none := by simp [modePower, modeStrength]

/-! ### Compensation gain -/

theorem powerSum_eq (w : ℕ → Option ℝ) (kr : ℝ) (hkr : kr ≠ 0) (v : ℕ → ℝ) : ∀ k : ℕ, (∀ n < k, w n = some (v n)) →
    powerSum w kr k = .ok (some (∑ n ∈ Finset.range k, v n * (modePower n kr).getD 0))
  | 0, _ => rfl
  | k + 1, h => by
    rw [powerSum, powerSum_eq w kr hkr v k fun n hn => h n (by omega)]
    obtain ⟨m, hm, -⟩ := modePower_pos k hkr
    change (match w k with | none => _ | some wn => _) = _
    rw [h k (by omega), Finset.sum_range_succ, hm]
    rfl

theorem powerSum_nan (w : ℕ → Option ℝ) (v : ℕ → ℝ) : ∀ k : ℕ, (∀ n < k + 1, w n = some (v n)) → powerSum w 0 (k + 1) = .ok none := by
  have ok : ∀ k : ℕ, (∀ n < k, w n = some (v n)) → ∃ p, powerSum w 0 k = .ok p := by
    intro k
    induction k with
    | zero => exact fun _ => ⟨_, rfl⟩
    | succ k ih =>
      intro h
      obtain ⟨p, hp⟩ := ih fun n hn => h n (by omega)
      refine ⟨p.bind fun p => (modePower k 0).map fun m => p + v k * m, ?_⟩
      rw [powerSum, hp]
      change (match w k with | none => _ | some wn => _) = _
      rw [h k (by omega)]
  intro k h
  obtain ⟨p, hp⟩ := ok k fun n hn => h n (by omega)
  rw [powerSum, hp]
  change (match w k with | none => _ | some wn => _) = _
  rw [h k (by omega), modePower_zero]
  cases p <;> rfl

theorem powerSum_short (w : ℕ → Option ℝ) (kr : ℝ) (m : ℕ) (hm : w m = none) : ∀ k : ℕ, m < k → powerSum w kr k = .error .indexError
  | 0, h => by omega
  | k + 1, h => by
    rw [powerSum]
    by_cases hk : m < k
    · rw [powerSum_short w kr m hm k hk]; rfl
    · have : m = k := by omega
      subst this
      rcases hp : powerSum w kr m with e | p
      · rcases powerSum_err w kr m e hp with rfl; rfl
      · change (match w m with | none => _ | some wn => _) = _
        rw [hm]
where
  powerSum_err (w : ℕ → Option ℝ) (kr : ℝ) : ∀ (k : ℕ) (e : PyErr), powerSum w kr k = .error e → e = .indexError
    | 0, e, h => by cases h
    | k + 1, e, h => by
      rw [powerSum] at h
      rcases hp : powerSum w kr k with e' | p
      · rw [hp] at h
        have := powerSum_err w kr k e' hp
        subst this
        cases h; rfl
      · rw [hp] at h
        change (match w k with | none => _ | some wn => _) = _ at h
        rcases hw : w k with _ | x
        · rw [hw] at h; cases h; rfl
        · rw [hw] at h; cases h

/-- Specification: power of order `n` on a rigid sphere at `kr`, up to a factor that is common to all orders. -/
noncomputable def RigidPower (n : ℕ) (kr : ℝ) : ℝ := (2 * n + 1) / (deriv (sphJ n) kr ^ 2 + deriv (sphY n) kr ^ 2)

theorem modePower_eq (n : ℕ) {kr : ℝ} (hkr : kr ≠ 0) : modePower n kr = some ((4 * π / kr ^ 2) ^ 2 * RigidPower n kr) := by
  obtain ⟨b, hb, hb0, hd, hv⟩ := C88_rigid n kr hkr
  have hn : ‖((deriv (sphJ n) kr : ℝ) : ℂ) - Complex.I * ((deriv (sphY n) kr : ℝ) : ℂ)‖ ^ 2 = deriv (sphJ n) kr ^ 2 + deriv (sphY n) kr ^ 2 := by
    rw [← Complex.normSq_eq_norm_sq, Complex.normSq_apply]
    simp
    ring
  have hb2 : ‖b‖ ^ 2 = (4 * π / kr ^ 2) ^ 2 / (deriv (sphJ n) kr ^ 2 + deriv (sphY n) kr ^ 2) := by
    rw [← hn, hv]
    simp only [norm_div, norm_mul, norm_pow, Complex.norm_I, one_pow, one_mul, mul_one, Complex.norm_real, Complex.norm_ofNat]
    rw [div_pow, mul_pow (‖kr‖ ^ 2), div_pow, norm_eq_abs, norm_eq_abs, sq_abs, abs_of_pos pi_pos, div_div]
  simp only [modePower, hb, hb2, RigidPower]
  congr 1
  ring

theorem rigidPower_pos (n : ℕ) {kr : ℝ} (hkr : kr ≠ 0) : 0 < RigidPower n kr := by
  obtain ⟨m, hm, hp⟩ := modePower_pos n hkr
  rw [modePower_eq n hkr] at hm
  rw [← Option.some.inj hm] at hp
  exact pos_of_mul_pos_right hp (by positivity)

/-- The weight of order `n`. -/
def taperAt (w : Option (List ℝ)) (n : ℕ) : ℝ := match w with
  | none => 1
  | some l => l.getD n 0

theorem pressure_eq (N : ℤ) {kr : ℝ} (hkr : kr ≠ 0) (w : Option (List ℝ)) (hw : ∀ l, w = some l → N + 1 ≤ l.length) :
    pressureOnSphere N kr w = .ok (some (1 / kr ^ 2 * √(∑ n ∈ Finset.range (N + 1).toNat, taperAt w n * RigidPower n kr))) := by
  rw [pressureOnSphere, powerSum_eq _ kr hkr (taperAt w)]
  · have : ∑ n ∈ Finset.range (N + 1).toNat, taperAt w n * (modePower n kr).getD 0
        = (4 * π / kr ^ 2) ^ 2 * ∑ n ∈ Finset.range (N + 1).toNat, taperAt w n * RigidPower n kr := by
      rw [Finset.mul_sum]
      refine Finset.sum_congr rfl fun n _ => ?_
      rw [modePower_eq n hkr, Option.getD_some]
      ring
    rw [this]
    change Except.ok (some (1 / (4 * π) * √_)) = _
    have hp : 0 ≤ 4 * π / kr ^ 2 := by positivity
    rw [sqrt_mul (sq_nonneg _), sqrt_sq hp, ← mul_assoc]
    congr 3
    field_simp
  · intro n hn
    cases w with
    | none => rfl
    | some l =>
      have := hw l rfl
      have hl : n < l.length := by omega
      simp [taperAt, weightAt, hl]

theorem pressure_nan (N : ℕ) (w : Option (List ℝ)) (hw : ∀ l, w = some l → N + 1 ≤ l.length) : pressureOnSphere N 0 w = .ok none := by
  have : ((N : ℤ) + 1).toNat = N + 1 := by omega
  rw [pressureOnSphere, this, powerSum_nan _ (taperAt w)]
  · rfl
  · intro n hn
    cases w with
    | none => rfl
    | some l =>
      have := hw l rfl
      have hl : n < l.length := by omega
      simp [taperAt, weightAt, hl]

theorem pressure_ok (N : ℤ) (kr : ℝ) : ∃ p, pressureOnSphere N kr none = .ok p := by
  by_cases hkr : kr = 0
  · subst hkr
    rcases lt_or_ge N 0 with h | h
    · have : (N + 1).toNat = 0 := by omega
      exact ⟨_, by rw [pressureOnSphere, this]; rfl⟩
    · obtain ⟨k, rfl⟩ := Int.eq_ofNat_of_zero_le h
      exact ⟨_, pressure_nan k none fun l h => by cases h⟩
  · exact ⟨_, pressure_eq N hkr none fun l h => by cases h⟩

/-- The gain of every frequency: 1 at 0 Hz, elsewhere the root of the power of all orders up to `⌈kr⌉` at the last frequency divided by the (weighted) power of
the orders up to `N`. -/
theorem C88_value (N : ℕ) (f : List ℝ) (r0 : ℝ) (w : Option (List ℝ)) (last : ℝ) (hlast : f.getLast? = some last) (hr : r0 ≠ 0)
    (hw : ∀ l, w = some l → N + 1 ≤ l.length) :
    ∃ g, colorationCompensation N f r0 w = .ok g ∧ g.length = f.length ∧ ∀ (i : ℕ) (fi : ℝ), f[i]? = some fi →
      (fi = 0 → g[i]? = some 1) ∧
      (fi ≠ 0 → g[i]? = some (√(∑ n ∈ Finset.range (⌈2 * π * last / 343 * r0⌉ + 1).toNat, RigidPower n (2 * π * fi / 343 * r0)) /
        √(∑ n ∈ Finset.range (N + 1), taperAt w n * RigidPower n (2 * π * fi / 343 * r0)))) := by
  have key : ∀ fi : ℝ, ∃ gi, compGain ⌈krOf last r0⌉ N (krOf fi r0) w = .ok gi ∧ (fi = 0 → gi = 1) ∧
      (fi ≠ 0 → gi = √(∑ n ∈ Finset.range (⌈2 * π * last / 343 * r0⌉ + 1).toNat, RigidPower n (2 * π * fi / 343 * r0)) /
        √(∑ n ∈ Finset.range (N + 1), taperAt w n * RigidPower n (2 * π * fi / 343 * r0))) := by
    intro fi
    by_cases h0 : fi = 0
    · subst h0
      obtain ⟨p, hp⟩ := pressure_ok ⌈krOf last r0⌉ (krOf 0 r0)
      refine ⟨1, ?_, fun _ => rfl, fun h => absurd rfl h⟩
      have hz : krOf 0 r0 = 0 := by simp [krOf]
      rw [compGain, hp, hz, pressure_nan N w hw]
      cases p <;> rfl
    · have hkr : krOf fi r0 ≠ 0 := by
        have := pi_ne_zero
        simp [krOf, h0, hr, this]
      refine ⟨_, ?_, fun h => absurd h h0, fun _ => rfl⟩
      rw [compGain, pressure_eq _ hkr none (fun l h => by cases h), pressure_eq _ hkr w (fun l h => by have := hw l h; omega)]
      have : ((N : ℤ) + 1).toNat = N + 1 := by omega
      change Except.ok (_ / _) = _
      rw [this, mul_div_mul_left _ _ (by positivity)]
      simp only [taperAt, one_mul]
      rfl
  choose g hg h0 h1 using key
  refine ⟨f.map g, ?_, by simp, fun i fi hi => ?_⟩
  · rw [colorationCompensation, hlast]
    refine mapM_ok_of _ f _ (by simp) fun i x y hx hy => ?_
    rw [List.getElem?_map, hx] at hy
    rw [← Option.some.inj hy]
    exact hg x
  · rw [List.getElem?_map, hi]
    exact ⟨fun h => congrArg some (h0 fi h), fun h => congrArg some (h1 fi h)⟩

/-- `C88_value`: three frequencies, one of them zero. -/
example : ∃ g, colorationCompensation 1 [0, 500, 1000] 0.0875 (some [1, 0.5]) = .ok g ∧ g.length = 3 ∧ g[0]? = some 1 := by
  obtain ⟨g, h, h1, h2⟩ := C88_value 1 [0, 500, 1000] 0.0875 (some [1, 0.5]) 1000 rfl (by norm_num) (by simp)
  exact ⟨g, h, h1, (h2 0 0 rfl).1 rfl⟩

/-- When the order is not above `⌈kr⌉` at the last frequency and the taper is in `[0, 1]` and not all zero, the filter never attenuates; it is neutral at
0 Hz, and elsewhere exactly if nothing is truncated or tapered. -/
theorem C88_gain (N : ℕ) (f : List ℝ) (r0 : ℝ) (w : Option (List ℝ)) (last : ℝ) (hlast : f.getLast? = some last) (hr : r0 ≠ 0)
    (hw : ∀ l, w = some l → N + 1 ≤ l.length ∧ (∀ n ≤ N, 0 ≤ l.getD n 0 ∧ l.getD n 0 ≤ 1) ∧ ∃ n ≤ N, 0 < l.getD n 0)
    (hN : (N : ℤ) ≤ ⌈2 * π * last / 343 * r0⌉) :
    ∃ g, colorationCompensation N f r0 w = .ok g ∧ g.length = f.length ∧ ∀ (i : ℕ) (fi : ℝ), f[i]? = some fi →
      ∃ gi, g[i]? = some gi ∧ 1 ≤ gi ∧ (fi = 0 → gi = 1) ∧
        (fi ≠ 0 → (gi = 1 ↔ (N : ℤ) = ⌈2 * π * last / 343 * r0⌉ ∧ ∀ l, w = some l → ∀ n ≤ N, l.getD n 0 = 1)) := by
  obtain ⟨g, hg, hl, h⟩ := C88_value N f r0 w last hlast hr fun l h => (hw l h).1
  refine ⟨g, hg, hl, fun i fi hi => ?_⟩
  obtain ⟨h0, h1⟩ := h i fi hi
  by_cases hf : fi = 0
  · exact ⟨1, h0 hf, le_refl _, fun _ => rfl, fun h => absurd hf h⟩
  refine ⟨_, h1 hf, ?_⟩
  have hkr : 2 * π * fi / 343 * r0 ≠ 0 := by
    have := pi_ne_zero
    simp [hf, hr, this]
  generalize 2 * π * fi / 343 * r0 = kr at hkr
  generalize hM : (⌈2 * π * last / 343 * r0⌉ + 1).toNat = M
  have hM' : N + 1 ≤ M := by omega
  have hP := fun n => rigidPower_pos n hkr
  have ht0 : ∀ n ∈ Finset.range (N + 1), 0 ≤ taperAt w n := by
    intro n hn
    have hn : n ≤ N := by simpa [Nat.lt_succ_iff] using hn
    cases w with
    | none => exact zero_le_one
    | some l => exact ((hw l rfl).2.1 n hn).1
  have ht1 : ∀ n ∈ Finset.range (N + 1), taperAt w n ≤ 1 := by
    intro n hn
    have hn : n ≤ N := by simpa [Nat.lt_succ_iff] using hn
    cases w with
    | none => exact le_refl _
    | some l => exact ((hw l rfl).2.1 n hn).2
  have hB : 0 < ∑ n ∈ Finset.range (N + 1), taperAt w n * RigidPower n kr := by
    refine Finset.sum_pos' (fun n hn => mul_nonneg (ht0 n hn) (hP n).le) ?_
    cases w with
    | none => exact ⟨0, by simp, by simpa [taperAt] using hP 0⟩
    | some l =>
      obtain ⟨n, hn, hp⟩ := (hw l rfl).2.2
      exact ⟨n, by simp; omega, mul_pos hp (hP n)⟩
  have hBC : ∑ n ∈ Finset.range (N + 1), taperAt w n * RigidPower n kr ≤ ∑ n ∈ Finset.range (N + 1), RigidPower n kr :=
    Finset.sum_le_sum fun n hn => mul_le_of_le_one_left (hP n).le (ht1 n hn)
  have hCA : ∑ n ∈ Finset.range (N + 1), RigidPower n kr ≤ ∑ n ∈ Finset.range M, RigidPower n kr :=
    Finset.sum_le_sum_of_subset_of_nonneg (Finset.range_subset_range.2 hM') fun n _ _ => (hP n).le
  rw [← sqrt_div' _ hB.le]
  refine ⟨?_, fun h => absurd h hf, fun _ => ?_⟩
  · rw [one_le_sqrt, one_le_div hB]
    exact hBC.trans hCA
  · rw [sqrt_eq_one, div_eq_one_iff_eq hB.ne']
    constructor
    · intro he
      have e1 : ∑ n ∈ Finset.range (N + 1), taperAt w n * RigidPower n kr = ∑ n ∈ Finset.range (N + 1), RigidPower n kr := by linarith
      have e2 : ∑ n ∈ Finset.range (N + 1), RigidPower n kr = ∑ n ∈ Finset.range M, RigidPower n kr := by linarith
      constructor
      · by_contra hne
        have hlt : N + 1 < M := by omega
        have : ∑ n ∈ Finset.range (N + 1), RigidPower n kr < ∑ n ∈ Finset.range M, RigidPower n kr :=
          Finset.sum_lt_sum_of_subset (Finset.range_subset_range.2 hM') (i := N + 1) (by simpa using hlt) (by simp) (hP _) fun n _ _ => (hP n).le
        linarith
      · intro l hl n hn
        have := (Finset.sum_eq_sum_iff_of_le fun n hn => mul_le_of_le_one_left (hP n).le (ht1 n hn)).1 e1 n (by simp; omega)
        have h2 : (taperAt w n - 1) * RigidPower n kr = 0 := by linarith
        rcases mul_eq_zero.1 h2 with h3 | h3
        · rw [hl] at h3
          have : l.getD n 0 - 1 = 0 := h3
          linarith
        · exact absurd h3 (hP n).ne'
    · rintro ⟨hN', hl⟩
      have : M = N + 1 := by omega
      subst this
      refine Finset.sum_congr rfl fun n hn => ?_
      have hn : n ≤ N := by simpa [Nat.lt_succ_iff] using hn
      have : taperAt w n = 1 := by
        cases w with
        | none => rfl
        | some l => exact hl l rfl n hn
      rw [this, one_mul]

/-- Without frequencies, and with a taper that is too short, the function raises `IndexError`. -/
theorem C88_errors (N : ℕ) (r0 : ℝ) : (∀ w, colorationCompensation N [] r0 w = .error .indexError) ∧
    ∀ (f l : List ℝ), l.length ≤ N → colorationCompensation N f r0 (some l) = .error .indexError := by
  refine ⟨fun _ => rfl, fun f l hl => ?_⟩
  rcases f with _ | ⟨a, f⟩
  · rfl
  rw [colorationCompensation, List.getLast?_eq_some_getLast (List.cons_ne_nil a f)]
  change (List.mapM _ (a :: f)) = _
  rw [List.mapM_cons]
  have : compGain ⌈krOf ((a :: f).getLast (List.cons_ne_nil a f)) r0⌉ N (krOf a r0) (some l) = .error .indexError := by
    obtain ⟨p, hp⟩ := pressure_ok ⌈krOf ((a :: f).getLast (List.cons_ne_nil a f)) r0⌉ (krOf a r0)
    rw [compGain, hp]
    change (pressureOnSphere N _ _).map _ = _
    have h1 : ((N : ℤ) + 1).toNat = N + 1 := by omega
    rw [pressureOnSphere, h1, powerSum_short _ _ l.length (by simp [weightAt]) (N + 1) (by omega)]
    rfl
  rw [this]
  rfl

/-- Example: three frequencies, order 1, a taper: at 0 Hz the gain is 1, at the others it is above 1. -/
example : ∃ g : List ℝ, colorationCompensation 1 [0, 500, 1000] 0.0875 (some [1, 0.5]) = .ok g ∧ g.length = 3 ∧ g[0]? = some 1 ∧
    ∃ a, g[1]? = some a ∧ 1 < a := by
  have hc : ((1 : ℕ) : ℤ) ≤ ⌈2 * π * 1000 / 343 * 0.0875⌉ := by
    have : (0 : ℝ) < 2 * π * 1000 / 343 * 0.0875 := by positivity
    have := Int.ceil_pos.2 this
    push_cast
    omega
  obtain ⟨g, hg, hl, h⟩ := C88_gain 1 [0, 500, 1000] 0.0875 (some [1, 0.5]) 1000 rfl (by norm_num)
    (fun l h => by
      obtain rfl : [1, 0.5] = l := Option.some.inj h
      refine ⟨by simp, fun n hn => ?_, 0, by simp, by simp⟩
      rcases n with _ | _ | n
      · norm_num
      · norm_num
      · omega) hc
  obtain ⟨g0, h0, -, h0', -⟩ := h 0 0 rfl
  obtain ⟨g1, h1, hle, -, h1'⟩ := h 1 500 rfl
  refine ⟨g, hg, hl, by rw [h0, h0' rfl], g1, h1, lt_of_le_of_ne hle fun he => ?_⟩
  have := ((h1' (by norm_num)).1 he.symm).2 _ rfl 1 (le_refl _)
  norm_num at this

end Verif.Props
