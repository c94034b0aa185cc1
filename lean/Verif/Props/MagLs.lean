import Verif.Model.MagLs
import Verif.Proofs.PyList
import Verif.Proofs.PostEq
import Verif.Props.GridWeights
import Verif.Props.AmbiDecoders
import Verif.Props.Interaural

/-!
C89: magnitude least squares binaural decoder.
-/

namespace Verif.Props
open Real Verif.Sph Verif.Sig Verif.Decoder

/-! ### Inverse transform -/

theorem dft_reflect (n : ℕ) (hn : 0 < n) (x : ℕ → ℝ) (k : ℕ) (hk : k ≤ n) : Parsa.dft n n x (n - k) = (starRingEnd ℂ) (Parsa.dft n n x k) := by
  unfold Parsa.dft
  rw [map_sum]
  refine Finset.sum_congr rfl fun m _ => ?_
  rw [map_mul, Complex.conj_ofReal, ← Complex.exp_conj]
  congr 1
  have hn0 : (n : ℂ) ≠ 0 := by exact_mod_cast hn.ne'
  have h1 : -(2 * (π : ℂ) * Complex.I * (((n - k : ℕ) : ℂ) * m) / n) = (2 * (π : ℂ) * Complex.I * ((k : ℂ) * m) / n) - (m : ℕ) * (2 * π * Complex.I) := by
    rw [Nat.cast_sub hk]
    field_simp
    ring
  rw [h1, Complex.exp_sub, Complex.exp_nat_mul_two_pi_mul_I, div_one]
  congr 1
  simp [map_ofNat (starRingEnd ℂ) 2]
  ring

theorem irfft_dft (h : ℕ) (hh : 0 < h) (x : ℕ → ℝ) (t : ℕ) (ht : t < 2 * h) : irfftAt (h + 1) (Parsa.dft (2 * h) (2 * h) x) t = x t := by
  set X := Parsa.dft (2 * h) (2 * h) x with hX
  set e : ℕ → ℂ := fun k => Complex.exp (2 * π * Complex.I * (k * t) / (2 * h : ℕ)) with he
  have hn0 : ((2 * h : ℕ) : ℂ) ≠ 0 := by exact_mod_cast (by omega : 2 * h ≠ 0)
  have hinv := Parsa.idft_dft (2 * h) (2 * h) (by omega) le_rfl x t ht
  rw [if_pos ht] at hinv
  unfold Parsa.idft at hinv
  set f : ℕ → ℝ := fun k => (X k * e k).re with hf
  have hsum : ∑ k ∈ Finset.range (2 * h), f k = (2 * h : ℕ) * x t := by
    have h1 : ∑ k ∈ Finset.range (2 * h), X k * e k = (2 * h : ℕ) * (x t : ℂ) := by
      rw [← hinv, ← mul_assoc, mul_one_div_cancel hn0, one_mul]
    have := congrArg Complex.re h1
    rw [Complex.re_sum] at this
    rw [this, ← Complex.ofReal_natCast, ← Complex.ofReal_mul, Complex.ofReal_re]
  have hrefl : ∀ k ≤ 2 * h, f (2 * h - k) = f k := by
    intro k hk
    have he' : e (2 * h - k) = (starRingEnd ℂ) (e k) := by
      simp only [he]
      rw [← Complex.exp_conj]
      have h1 : 2 * (π : ℂ) * Complex.I * (((2 * h - k : ℕ) : ℂ) * t) / (2 * h : ℕ) = -(2 * (π : ℂ) * Complex.I * ((k : ℂ) * t) / (2 * h : ℕ)) + (t : ℕ) * (2 * π * Complex.I) := by
        rw [Nat.cast_sub hk]
        field_simp
        ring
      rw [h1, Complex.exp_add, Complex.exp_nat_mul_two_pi_mul_I, mul_one]
      congr 1
      simp [map_ofNat (starRingEnd ℂ) 2]
      ring
    simp only [hf]
    rw [hX, dft_reflect _ (by omega) x k hk, he', ← map_mul, Complex.conj_re]
  have hf0 : f 0 = (X 0).re := by simp [hf, he]
  have hfh : f h = (-1) ^ t * (X h).re := by
    have h1 : e h = ((-1 : ℝ) ^ t : ℝ) := by
      simp only [he]
      have : 2 * (π : ℂ) * Complex.I * ((h : ℂ) * t) / (2 * h : ℕ) = (t : ℕ) * (π * Complex.I) := by
        have : (h : ℂ) ≠ 0 := by exact_mod_cast hh.ne'
        push_cast
        field_simp
      rw [this, Complex.exp_nat_mul, Complex.exp_pi_mul_I]
      push_cast
      rfl
    simp only [hf]
    rw [h1, mul_comm, Complex.re_ofReal_mul]
  have hsplit : ∑ k ∈ Finset.range (2 * h), f k = f 0 + f h + 2 * ∑ k ∈ Finset.range (h - 1), f (k + 1) := by
    obtain ⟨m, rfl⟩ : ∃ m, h = m + 1 := ⟨h - 1, by omega⟩
    have : 2 * (m + 1) = (m + 1 + m) + 1 := by ring
    rw [this, Finset.sum_range_succ', Finset.sum_range_add (fun k => f (k + 1)) (m + 1) m, Finset.sum_range_succ]
    have h2 : ∑ i ∈ Finset.range m, f (m + 1 + i + 1) = ∑ k ∈ Finset.range m, f (k + 1) := by
      rw [← Finset.sum_range_reflect]
      refine Finset.sum_congr rfl fun j hj => ?_
      have hj := Finset.mem_range.1 hj
      rw [← hrefl (j + 1) (by omega)]
      congr 1
      omega
    rw [h2]
    simp only [Nat.add_sub_cancel]
    ring
  unfold irfftAt
  have e1 : h + 1 - 1 = h := by omega
  have e2 : h + 1 - 2 = h - 1 := by omega
  rw [e1, e2]
  have : (X 0).re + (-1) ^ t * (X h).re + 2 * ∑ k ∈ Finset.range (h - 1), (X (k + 1) * Complex.exp (2 * π * Complex.I * ((k + 1 : ℕ) * t) / (2 * h : ℕ))).re
      = (2 * h : ℕ) * x t := by
    rw [← hsum, hsplit, hf0, hfh]
  rw [this]
  have : ((2 * h : ℕ) : ℝ) ≠ 0 := by exact_mod_cast (by omega : 2 * h ≠ 0)
  field_simp

/-- Hermitian continuation of `h + 1` bins to `2h` bins. -/
noncomputable def hermitian (h : ℕ) (X : ℕ → ℂ) (k : ℕ) : ℂ :=
  if k = 0 ∨ k = h then ((X k).re : ℂ) else if k < h then X k else (starRingEnd ℂ) (X (2 * h - k))

theorem hermitian_reflect (h : ℕ) (hh : 0 < h) (X : ℕ → ℂ) (k : ℕ) (hk : 0 < k) (hk2 : k < 2 * h) :
    hermitian h X (2 * h - k) = (starRingEnd ℂ) (hermitian h X k) := by
  unfold hermitian
  have e : 2 * h - (2 * h - k) = k := by omega
  rw [e]
  rcases lt_trichotomy k h with h1 | h1 | h1
  · rw [if_neg (by omega), if_neg (by omega), if_neg (by omega), if_pos h1]
  · subst h1
    have : 2 * k - k = k := by omega
    rw [this, if_pos (.inr rfl), Complex.conj_ofReal]
  · rw [if_neg (by omega), if_pos (by omega), if_neg (by omega), if_neg (by omega), Complex.conj_conj]

theorem irfft_eq (h : ℕ) (hh : 0 < h) (X : ℕ → ℂ) (t : ℕ) : ((irfftAt (h + 1) X t : ℝ) : ℂ) = Parsa.idft (2 * h) (hermitian h X) t := by
  set e : ℕ → ℂ := fun k => Complex.exp (2 * π * Complex.I * (k * t) / (2 * h : ℕ)) with he
  have hn0 : ((2 * h : ℕ) : ℂ) ≠ 0 := by exact_mod_cast (by omega : 2 * h ≠ 0)
  have he' : ∀ k ≤ 2 * h, e (2 * h - k) = (starRingEnd ℂ) (e k) := by
    intro k hk
    simp only [he]
    rw [← Complex.exp_conj]
    have h1 : 2 * (π : ℂ) * Complex.I * (((2 * h - k : ℕ) : ℂ) * t) / (2 * h : ℕ) = -(2 * (π : ℂ) * Complex.I * ((k : ℂ) * t) / (2 * h : ℕ)) + (t : ℕ) * (2 * π * Complex.I) := by
      rw [Nat.cast_sub hk]
      field_simp
      ring
    rw [h1, Complex.exp_add, Complex.exp_nat_mul_two_pi_mul_I, mul_one]
    congr 1
    simp [map_ofNat (starRingEnd ℂ) 2]
    ring
  have he0 : e 0 = 1 := by simp [he]
  have heh : e h = ((-1 : ℝ) ^ t : ℝ) := by
    simp only [he]
    have : 2 * (π : ℂ) * Complex.I * ((h : ℂ) * t) / (2 * h : ℕ) = (t : ℕ) * (π * Complex.I) := by
      have : (h : ℂ) ≠ 0 := by exact_mod_cast hh.ne'
      push_cast
      field_simp
    rw [this, Complex.exp_nat_mul, Complex.exp_pi_mul_I]
    push_cast
    rfl
  set F : ℕ → ℂ := fun k => hermitian h X k * e k with hF
  have hsplit : ∑ k ∈ Finset.range (2 * h), F k = F 0 + F h + ∑ k ∈ Finset.range (h - 1), (F (k + 1) + F (2 * h - (k + 1))) := by
    obtain ⟨m, rfl⟩ : ∃ m, h = m + 1 := ⟨h - 1, by omega⟩
    have : 2 * (m + 1) = (m + 1 + m) + 1 := by ring
    conv_lhs => rw [this, Finset.sum_range_succ', Finset.sum_range_add (fun k => F (k + 1)) (m + 1) m, Finset.sum_range_succ]
    have h2 : ∑ i ∈ Finset.range m, F (m + 1 + i + 1) = ∑ k ∈ Finset.range m, F (2 * (m + 1) - (k + 1)) := by
      rw [← Finset.sum_range_reflect]
      refine Finset.sum_congr rfl fun j hj => ?_
      have hj := Finset.mem_range.1 hj
      congr 1
      omega
    rw [h2]
    simp only [Nat.add_sub_cancel]
    rw [Finset.sum_add_distrib]
    ring
  have hpair : ∀ k ∈ Finset.range (h - 1), F (k + 1) + F (2 * h - (k + 1)) = ((2 * (X (k + 1) * e (k + 1)).re : ℝ) : ℂ) := by
    intro k hk
    have hk := Finset.mem_range.1 hk
    simp only [hF]
    rw [hermitian_reflect h hh X (k + 1) (by omega) (by omega), he' (k + 1) (by omega), ← map_mul]
    have : hermitian h X (k + 1) = X (k + 1) := by
      unfold hermitian
      rw [if_neg (by omega), if_pos (by omega)]
    rw [this, Complex.add_conj]
  have hF0 : F 0 = ((X 0).re : ℂ) := by
    simp only [hF]
    rw [he0, mul_one, hermitian, if_pos (.inl rfl)]
  have hFh : F h = (((-1) ^ t * (X h).re : ℝ) : ℂ) := by
    simp only [hF]
    rw [heh, hermitian, if_pos (.inr rfl)]
    push_cast
    ring
  have hid : Parsa.idft (2 * h) (hermitian h X) t = 1 / (2 * h : ℕ) * ∑ k ∈ Finset.range (2 * h), F k := rfl
  rw [hid, hsplit, hF0, hFh, Finset.sum_congr rfl hpair]
  unfold irfftAt
  have e1 : h + 1 - 1 = h := by omega
  have e2 : h + 1 - 2 = h - 1 := by omega
  rw [e1, e2, Finset.mul_sum]
  simp only [he]
  push_cast
  rfl

theorem dft_idft (n : ℕ) (hn : 0 < n) (E : ℕ → ℂ) (x : ℕ → ℝ) (hx : ∀ t < n, (x t : ℂ) = Parsa.idft n E t) (k : ℕ) (hk : k < n) : Parsa.dft n n x k = E k := by
  have hn0 : (n : ℂ) ≠ 0 := by exact_mod_cast hn.ne'
  unfold Parsa.dft
  rw [Finset.sum_congr rfl fun m hm => by rw [hx m (Finset.mem_range.1 hm)]]
  unfold Parsa.idft
  have : ∀ m : ℕ, 1 / (n : ℂ) * (∑ j ∈ Finset.range n, E j * Complex.exp (2 * π * Complex.I * (j * m) / n)) * Complex.exp (-(2 * π * Complex.I * (k * m) / n))
      = ∑ j ∈ Finset.range n, 1 / (n : ℂ) * E j * (Complex.exp (-(2 * π * Complex.I * (m * k) / n)) * Complex.exp (2 * π * Complex.I * (m * j) / n)) := by
    intro m
    rw [Finset.mul_sum, Finset.sum_mul]
    refine Finset.sum_congr rfl fun j _ => ?_
    rw [mul_comm (j : ℂ) m, mul_comm (k : ℂ) m]
    ring
  simp only [this]
  rw [Finset.sum_comm]
  have h2 : ∀ j ∈ Finset.range n, ∑ m ∈ Finset.range n, 1 / (n : ℂ) * E j * (Complex.exp (-(2 * π * Complex.I * (m * k) / n)) * Complex.exp (2 * π * Complex.I * (m * j) / n))
      = if j = k then E j else 0 := by
    intro j hj
    rw [← Finset.mul_sum, Parsa.root_sum n hn j k (Finset.mem_range.1 hj) hk]
    split_ifs
    · field_simp
    · ring
  rw [Finset.sum_congr rfl h2, Finset.sum_ite_eq', if_pos (Finset.mem_range.2 hk)]

/-- The transform of the inverse transform: the given bins, real parts at the ends. -/
theorem dft_irfft (h : ℕ) (hh : 0 < h) (X : ℕ → ℂ) (k : ℕ) (hk : k ≤ h) :
    Parsa.dft (2 * h) (2 * h) (irfftAt (h + 1) X) k = if k = 0 ∨ k = h then ((X k).re : ℂ) else X k := by
  rw [dft_idft (2 * h) (by omega) (hermitian h X) _ (fun t _ => irfft_eq h hh X t) k (by omega)]
  unfold hermitian
  split_ifs with h1 h2
  · rfl
  · rfl
  · omega

theorem irfft_congr (m : ℕ) (X X' : ℕ → ℂ) (h : ∀ k < m, X k = X' k) (hm : 2 ≤ m) (t : ℕ) : irfftAt m X t = irfftAt m X' t := by
  unfold irfftAt
  rw [h 0 (by omega), h (m - 1) (by omega), Finset.sum_congr rfl fun k hk => by rw [h (k + 1) (by have := Finset.mem_range.1 hk; omega)]]

theorem irfft_mul (m : ℕ) (c : ℝ) (X : ℕ → ℂ) (t : ℕ) : irfftAt m (fun k => (c : ℂ) * X k) t = c * irfftAt m X t := by
  unfold irfftAt
  have : ∀ k : ℕ, ((c : ℂ) * X (k + 1) * Complex.exp (2 * π * Complex.I * ((k + 1 : ℕ) * t) / (2 * (m - 1) : ℕ))).re
      = c * (X (k + 1) * Complex.exp (2 * π * Complex.I * ((k + 1 : ℕ) * t) / (2 * (m - 1) : ℕ))).re := by
    intro k
    rw [mul_assoc, Complex.re_ofReal_mul]
  simp only [this, Complex.re_ofReal_mul]
  rw [← Finset.mul_sum]
  ring

/-! ### Phase differences -/

theorem unwrapDiff_spec (d : ℝ) : (∃ k : ℤ, unwrapDiff d = d + 2 * π * k) ∧ |unwrapDiff d| ≤ π := by
  have hp := pi_pos
  obtain ⟨k, hk⟩ := Verif.Utils.exists_pyMod (d + π) (2 * π)
  have h0 := Verif.Utils.pyMod_nonneg (d + π) (2 * π) (by positivity)
  have h1 := Verif.Utils.pyMod_lt (d + π) (2 * π) (by positivity)
  unfold unwrapDiff
  simp only
  split_ifs with ha hb
  · exact ⟨⟨0, by simp⟩, ha.le⟩
  · refine ⟨⟨k + 1, ?_⟩, by rw [abs_of_pos hp]⟩
    push_cast
    linarith [hb.1]
  · refine ⟨⟨k, by rw [hk]; ring⟩, ?_⟩
    rw [abs_le]; constructor <;> linarith

/-- **C89** What unwrapping the phases does: the first one stays, whole turns are added to the others, and no step is larger than half a turn. -/
theorem C89_unwrap (p : ℕ → ℝ) : unwrap p 0 = p 0 ∧ ∀ k, (∃ n : ℤ, unwrap p k = p k + 2 * π * n) ∧ |unwrap p (k + 1) - unwrap p k| ≤ π := by
  refine ⟨rfl, fun k => ⟨?_, ?_⟩⟩
  · induction k with
    | zero => exact ⟨0, by simp [unwrap]⟩
    | succ k ih =>
      obtain ⟨n, hn⟩ := ih
      obtain ⟨m, hm⟩ := (unwrapDiff_spec (p (k + 1) - p k)).1
      exact ⟨n + m, by rw [unwrap, hn, hm]; push_cast; ring⟩
  · rw [unwrap, add_sub_cancel_left]; exact (unwrapDiff_spec _).2

theorem unwrapDiff_turn (θ : ℝ) (h0 : 0 ≤ θ) (h1 : θ < π) (m : ℤ) : unwrapDiff (-θ + m * (2 * π)) = -θ := by
  have hpi := pi_pos
  unfold unwrapDiff
  by_cases h : |-θ + m * (2 * π)| < π
  · rw [if_pos h]
    have hm : m = 0 := by
      rw [abs_lt] at h
      have a : (m : ℝ) < 1 := by nlinarith
      have b : (-1 : ℝ) < m := by nlinarith
      have a' : m < 1 := by exact_mod_cast a
      have b' : -1 < m := by exact_mod_cast b
      omega
    rw [hm]; simp
  · rw [if_neg h]
    have hfl : ⌊(-θ + m * (2 * π) + π) / (2 * π)⌋ = m := by
      rw [Int.floor_eq_iff, le_div_iff₀ (by positivity), div_lt_iff₀ (by positivity)]
      constructor <;> nlinarith
    have hv : pyMod (-θ + m * (2 * π) + π) (2 * π) - π = -θ := by
      unfold pyMod
      rw [hfl]; ring
    simp only [hv]
    rw [if_neg]
    rintro ⟨h2, -⟩
    linarith

theorem phase_step (c θ : ℝ) (hc : c ≠ 0) (k : ℕ) : ∃ m : ℤ,
    ((c : ℂ) * Complex.exp (-(Complex.I * (θ * (k + 1 : ℕ))))).arg - ((c : ℂ) * Complex.exp (-(Complex.I * (θ * k)))).arg = -θ + m * (2 * π) := by
  set z := (c : ℂ) * Complex.exp (-(Complex.I * (θ * k))) with hz
  set z' := (c : ℂ) * Complex.exp (-(Complex.I * (θ * (k + 1 : ℕ)))) with hz'
  have hc' : (c : ℂ) ≠ 0 := by exact_mod_cast hc
  have hzz : z' = z * Complex.exp (-(Complex.I * θ)) := by
    rw [hz, hz', mul_assoc, ← Complex.exp_add]
    congr 2
    push_cast
    ring
  have hn : ‖z'‖ = ‖z‖ := by
    rw [hzz, norm_mul]
    have : ‖Complex.exp (-(Complex.I * θ))‖ = 1 := by
      rw [Complex.norm_exp]; simp
    rw [this, mul_one]
  have hz0 : z ≠ 0 := mul_ne_zero hc' (Complex.exp_ne_zero _)
  have hn0 : (‖z‖ : ℂ) ≠ 0 := by exact_mod_cast norm_ne_zero_iff.2 hz0
  have h1 := Complex.norm_mul_exp_arg_mul_I z
  have h2 := Complex.norm_mul_exp_arg_mul_I z'
  rw [hn, hzz, ← h1] at h2
  have h3 : Complex.exp (((z * Complex.exp (-(Complex.I * θ))).arg : ℝ) * Complex.I) = Complex.exp ((z.arg : ℝ) * Complex.I + -(Complex.I * θ)) := by
    rw [Complex.exp_add]
    rw [h1] at h2
    have : (‖z‖ : ℂ) * Complex.exp (((z * Complex.exp (-(Complex.I * θ))).arg : ℝ) * Complex.I)
        = (‖z‖ : ℂ) * (Complex.exp ((z.arg : ℝ) * Complex.I) * Complex.exp (-(Complex.I * θ))) := by
      rw [h2, ← mul_assoc, h1]
    exact mul_left_cancel₀ hn0 this
  rw [Complex.exp_eq_exp_iff_exists_int] at h3
  obtain ⟨m, hm⟩ := h3
  refine ⟨m, ?_⟩
  rw [hzz]
  have h4 := congrArg Complex.im hm
  simp at h4
  linarith

theorem meanDiff_delay (c θ : ℝ) (hc : c ≠ 0) (h0 : 0 ≤ θ) (h1 : θ < π) (cut : ℕ) :
    meanDiff (fun k => ((c : ℂ) * Complex.exp (-(Complex.I * (θ * k)))).arg) cut = -θ := by
  unfold meanDiff
  have : ∀ k : ℕ, unwrap (fun k => ((c : ℂ) * Complex.exp (-(Complex.I * (θ * k)))).arg) (k + 1)
      - unwrap (fun k => ((c : ℂ) * Complex.exp (-(Complex.I * (θ * k)))).arg) k = -θ := by
    intro k
    obtain ⟨m, hm⟩ := phase_step c θ hc k
    rw [unwrap, hm, unwrapDiff_turn θ h0 h1]
    ring
  rw [Finset.sum_congr rfl fun i _ => this (cut - 6 + i)]
  simp
  ring

/-! ### Least squares -/

/-- Specification: `c` fits `t` in the least squares sense. -/
def Fits {G K : ℕ} (Y : Matrix (Fin G) (Fin K) ℝ) (t : Fin G → ℂ) (c : Fin K → ℂ) : Prop :=
  ∀ c' : Fin K → ℂ, ∑ g, ‖∑ q, (Y g q : ℂ) * c q - t g‖ ^ 2 ≤ ∑ g, ‖∑ q, (Y g q : ℂ) * c' q - t g‖ ^ 2

theorem real_fit {G K : ℕ} {Y : Matrix (Fin G) (Fin K) ℝ} {P : Matrix (Fin K) (Fin G) ℝ} (h : IsPinv Y P) (t : Fin G → ℝ) (c : Fin K → ℝ) :
    ∑ g, (Y.mulVec (P.mulVec t) g - t g) ^ 2 ≤ ∑ g, (Y.mulVec c g - t g) ^ 2 := by
  set e := Y.mulVec (P.mulVec t) - t with he
  have horth : Matrix.vecMul e Y = 0 := by
    have h1 : e = (Y * P).mulVec t - t := by rw [he, Matrix.mulVec_mulVec]
    have h2 : (Y * P).mulVec t = Matrix.vecMul t (Y * P) := by rw [← Matrix.mulVec_transpose, h.ap]
    rw [h1, h2, Matrix.sub_vecMul, Matrix.vecMul_vecMul, h.apa, sub_self]
  have hd : ∀ g, Y.mulVec c g - t g = e g + Y.mulVec (c - P.mulVec t) g := by
    intro g
    rw [Matrix.mulVec_sub, he]
    simp only [Pi.sub_apply]
    ring
  have hz : ∑ g, e g * Y.mulVec (c - P.mulVec t) g = 0 := by
    have : e ⬝ᵥ Y.mulVec (c - P.mulVec t) = 0 := by rw [Matrix.dotProduct_mulVec, horth, zero_dotProduct]
    exact this
  calc ∑ g, (Y.mulVec (P.mulVec t) g - t g) ^ 2 = ∑ g, e g ^ 2 := rfl
    _ ≤ ∑ g, e g ^ 2 + ∑ g, (Y.mulVec (c - P.mulVec t) g) ^ 2 := le_add_of_nonneg_right (Finset.sum_nonneg fun g _ => sq_nonneg _)
    _ = ∑ g, (Y.mulVec c g - t g) ^ 2 := by
      rw [← Finset.sum_add_distrib, ← add_zero (∑ g, _), ← mul_zero 2, ← hz, Finset.mul_sum, ← Finset.sum_add_distrib]
      refine Finset.sum_congr rfl fun g _ => ?_
      rw [hd g]; ring

theorem re_realMul {r c : ℕ} (A : Matrix (Fin r) (Fin c) ℝ) (v : Fin c → ℂ) (i : Fin r) : (realMul A v i).re = A.mulVec (fun j => (v j).re) i := by
  simp only [realMul, Complex.re_sum, Complex.re_ofReal_mul]
  rfl

theorem im_realMul {r c : ℕ} (A : Matrix (Fin r) (Fin c) ℝ) (v : Fin c → ℂ) (i : Fin r) : (realMul A v i).im = A.mulVec (fun j => (v j).im) i := by
  simp only [realMul, Complex.im_sum, Complex.im_ofReal_mul]
  rfl

theorem pinv_fits {G K : ℕ} {Y : Matrix (Fin G) (Fin K) ℝ} {P : Matrix (Fin K) (Fin G) ℝ} (h : IsPinv Y P) (t : Fin G → ℂ) : Fits Y t (realMul P t) := by
  intro c'
  have hsq : ∀ c : Fin K → ℂ, ∑ g, ‖∑ q, (Y g q : ℂ) * c q - t g‖ ^ 2
      = ∑ g, (Y.mulVec (fun j => (c j).re) g - (t g).re) ^ 2 + ∑ g, (Y.mulVec (fun j => (c j).im) g - (t g).im) ^ 2 := by
    intro c
    rw [← Finset.sum_add_distrib]
    refine Finset.sum_congr rfl fun g _ => ?_
    change ‖realMul Y c g - t g‖ ^ 2 = _
    rw [← Complex.normSq_eq_norm_sq, Complex.normSq_apply, Complex.sub_re, Complex.sub_im, re_realMul, im_realMul]
    ring
  rw [hsq, hsq]
  have h1 : (fun j => (realMul P t j).re) = P.mulVec fun g => (t g).re := funext fun j => re_realMul P t j
  have h2 : (fun j => (realMul P t j).im) = P.mulVec fun g => (t g).im := funext fun j => im_realMul P t j
  rw [h1, h2]
  exact add_le_add (real_fit h _ _) (real_fit h _ _)

/-! ### Common delay -/

theorem realMul_const {r c : ℕ} (A : Matrix (Fin r) (Fin c) ℝ) (z : ℂ) (i : Fin r) : realMul A (fun _ => z) i = ((∑ j, A i j : ℝ) : ℂ) * z := by
  simp only [realMul]
  rw [← Finset.sum_mul]
  push_cast
  rfl

theorem pinv_ones {G N : ℕ} (azi zen : Fin G → ℝ) {P : Matrix (Fin ((N + 1) ^ 2)) (Fin G) ℝ} (h : IsPinv (shMat N azi zen) P)
    (hrank : LinearIndependent ℝ (shMat N azi zen).col) (q : Fin ((N + 1) ^ 2)) : ∑ g, P q g = if q = ⟨0, sq_pos' N⟩ then √(4 * π) else 0 := by
  have h1 : (P * shMat N azi zen) q ⟨0, sq_pos' N⟩ = (1 : Matrix (Fin ((N + 1) ^ 2)) (Fin ((N + 1) ^ 2)) ℝ) q ⟨0, sq_pos' N⟩ := by rw [pinv_left h hrank]
  rw [Matrix.mul_apply, Matrix.one_apply] at h1
  have h2 : ∀ g, shMat N azi zen g ⟨0, sq_pos' N⟩ = 1 / √(4 * π) := by
    intro g
    show realSH 0 0 (azi g) (zen g) = _
    rw [realSH_zero]
  simp only [h2] at h1
  rw [← Finset.sum_mul, mul_one_div, div_eq_iff (by positivity)] at h1
  rw [h1]
  split_ifs <;> simp

/-- Spectrum of a delayed impulse. -/
noncomputable def delayBin (A θ : ℝ) (k : ℕ) : ℂ := (A : ℂ) * Complex.exp (-(Complex.I * (θ * k)))

theorem delayBin_succ (A θ : ℝ) (k : ℕ) : delayBin A θ (k + 1) = delayBin A θ k * Complex.exp (-(Complex.I * θ)) := by
  unfold delayBin
  rw [mul_assoc, ← Complex.exp_add]
  congr 2
  push_cast
  ring

theorem norm_delayBin (A θ : ℝ) (k : ℕ) : ‖delayBin A θ k‖ = |A| := by
  unfold delayBin
  have : ‖Complex.exp (-(Complex.I * (θ * k)))‖ = 1 := by
    rw [Complex.norm_exp]; simp
  rw [norm_mul, this, mul_one, Complex.norm_real, norm_eq_abs]

theorem rendered_delay {G N : ℕ} (azi zen : Fin G → ℝ) (z : ℂ) (g : Fin G) :
    realMul (shMat N azi zen) (fun q => if q = ⟨0, sq_pos' N⟩ then (√(4 * π) : ℂ) * z else 0) g = z := by
  unfold realMul
  rw [Finset.sum_eq_single ⟨0, sq_pos' N⟩ (fun q _ hq => by simp only [if_neg hq, mul_zero]) (fun h => absurd (Finset.mem_univ _) h)]
  simp only [↓reduceIte]
  have : shMat N azi zen g ⟨0, sq_pos' N⟩ = 1 / √(4 * π) := by
    show realSH 0 0 (azi g) (zen g) = _
    rw [realSH_zero]
  rw [this]
  have h4 : (√(4 * π) : ℂ) ≠ 0 := by
    have : √(4 * π) ≠ 0 := by positivity
    exact_mod_cast this
  push_cast
  field_simp

theorem lin_delay {G N : ℕ} (azi zen : Fin G → ℝ) {P : Matrix (Fin ((N + 1) ^ 2)) (Fin G) ℝ} (h : IsPinv (shMat N azi zen) P)
    (hrank : LinearIndependent ℝ (shMat N azi zen).col) (z : ℂ) :
    realMul P (fun _ => z) = fun q => if q = ⟨0, sq_pos' N⟩ then (√(4 * π) : ℂ) * z else 0 := by
  funext q
  rw [realMul_const, pinv_ones azi zen h hrank]
  split_ifs <;> simp

theorem coeffs_delay {G N : ℕ} (azi zen : Fin G → ℝ) {P : Matrix (Fin ((N + 1) ^ 2)) (Fin G) ℝ} (h : IsPinv (shMat N azi zen) P)
    (hrank : LinearIndependent ℝ (shMat N azi zen).col) (A θ : ℝ) (cut : ℕ) (hcut : 0 < cut) : ∀ k : ℕ,
    magCoeffs (shMat N azi zen) P (fun _ k => delayBin A θ k) cut (fun _ => -θ) k
      = fun q => if q = ⟨0, sq_pos' N⟩ then (√(4 * π) : ℂ) * delayBin A θ k else 0
  | 0 => by rw [magCoeffs, if_pos hcut, lin_delay azi zen h hrank]
  | k + 1 => by
    rw [magCoeffs]
    split_ifs with hk
    · rw [lin_delay azi zen h hrank]
    · rw [coeffs_delay azi zen h hrank A θ cut hcut k, ← lin_delay azi zen h hrank (delayBin A θ (k + 1))]
      unfold magStep
      refine congrArg (realMul P) (funext fun g => ?_)
      simp only
      rw [rendered_delay, norm_delayBin, ← norm_delayBin A θ k, delayBin_succ]
      conv_rhs => rw [← Complex.norm_mul_exp_arg_mul_I (delayBin A θ k)]
      rw [mul_assoc, ← Complex.exp_add]
      congr 2
      push_cast
      ring

theorem hrtf_delay (n S τ : ℕ) (A : ℝ) (hτ : τ < S) (hS : S ≤ n) (a : Arr2) (g : ℕ) (hg : a.rows[g]? = some ((List.replicate S 0).set τ A)) (k : ℕ) :
    hrtf n a g k = delayBin A (2 * π * τ / n) k := by
  unfold hrtf Parsa.dft
  rw [List.getD_eq_getElem?_getD, hg, Option.getD_some]
  have hx : ∀ m, ((List.replicate S (0 : ℝ)).set τ A).getD m 0 = if m = τ then A else 0 := by
    intro m
    rw [List.getD_eq_getElem?_getD, List.getElem?_set]
    by_cases hm : m = τ
    · subst hm; simp [hτ]
    · rw [if_neg (Ne.symm hm), if_neg hm, List.getElem?_replicate]
      split_ifs <;> rfl
  simp only [hx]
  rw [Finset.sum_eq_single τ (fun m _ hm => by simp [hm]) (fun h => absurd (Finset.mem_range.2 (by omega)) h), if_pos rfl]
  unfold delayBin
  congr 2
  push_cast
  ring

theorem magTaper_mid (L t : ℕ) (h1 : 4 ≤ t) (h2 : t + 32 < L) : magTaper L t = 1 := by
  unfold magTaper
  rw [if_neg (by omega), if_neg (by omega), one_mul]

theorem taps_delay (S τ : ℕ) (A c : ℝ) (hS : Even S ∨ S ≤ 1024) (h1 : 4 ≤ τ) (h2 : τ + 32 < S) :
    magTaps S (magNfft S) (fun k => (c : ℂ) * delayBin A (2 * π * τ / magNfft S) k) = .ok ((List.replicate S 0).set τ (c * A)) := by
  obtain ⟨h, hh⟩ : ∃ h, magNfft S = 2 * h := by
    unfold magNfft
    rcases hS with hS | hS
    · obtain ⟨r, hr⟩ := hS
      rcases le_total 1024 S with h | h
      · exact ⟨r, by rw [max_eq_right h]; omega⟩
      · exact ⟨512, by rw [max_eq_left h]⟩
    · exact ⟨512, by rw [max_eq_left hS]⟩
  have hSn : S ≤ 2 * h := by rw [← hh]; exact le_max_right _ _
  have h512 : 1024 ≤ 2 * h := by rw [← hh]; exact le_max_left _ _
  have hb : magBins (2 * h) = h + 1 := by unfold magBins; omega
  unfold magTaps
  rw [hh, hb]
  have hL : min S (2 * (h + 1 - 1)) = S := by omega
  simp only [hL]
  rw [if_neg (by omega)]
  congr 1
  refine List.ext_getElem (by simp) fun t ht _ => ?_
  have ht : t < S := by simpa using ht
  rw [List.getElem_map, List.getElem_range]
  have hX : (fun k => (c : ℂ) * delayBin A (2 * π * τ / (2 * h : ℕ)) k) = fun k => (c : ℂ) * Parsa.dft (2 * h) (2 * h) (fun m => if m = τ then A else 0) k := by
    funext k
    congr 1
    unfold Parsa.dft delayBin
    rw [Finset.sum_eq_single τ (fun m _ hm => by simp [hm]) (fun h => absurd (Finset.mem_range.2 (by omega)) h)]
    simp only [↓reduceIte]
    congr 2
    push_cast
    ring
  rw [hX, irfft_mul, irfft_dft h (by omega) _ t (by omega), List.getElem_set]
  by_cases htt : t = τ
  · subst htt
    rw [if_pos rfl, if_pos rfl, magTaper_mid S t h1 h2, mul_one]
  · rw [if_neg htt, if_neg (Ne.symm htt)]
    simp

theorem taps_zero (S : ℕ) (hS : Even S ∨ S ≤ 1024) (h2 : 36 < S) : magTaps S (magNfft S) (fun _ => 0) = .ok (List.replicate S 0) := by
  have := taps_delay S 4 0 0 hS le_rfl (by omega)
  simp only [delayBin, Complex.ofReal_zero, zero_mul, mul_zero] at this
  rw [this]
  congr 1
  refine List.ext_getElem (by simp) fun t ht _ => ?_
  rw [List.getElem_set]
  split_ifs <;> simp

/-- The frequency index where the magnitude part begins. -/
theorem cut_spec (n : ℕ) (fs f : ℝ) : ∃ cut, magCut n fs f = .ok cut ∧ cut ≤ n / 2 ∧ (∀ k ≤ n / 2, |(cut : ℝ) * fs / n - f| ≤ |(k : ℝ) * fs / n - f|) ∧
    ∀ k < cut, |(cut : ℝ) * fs / n - f| < |(k : ℝ) * fs / n - f| := by
  obtain ⟨i, v, h1, h2, h3, h4⟩ := npArgmax_spec ((List.range (magBins n)).map fun k : ℕ => -|(k : ℝ) * fs / n - f|) (by simp [magBins])
  have hi : i < magBins n := by
    have := (List.getElem?_eq_some_iff.1 h2).1
    simpa using this
  have hv : v = -|(i : ℝ) * fs / n - f| := by
    rw [List.getElem?_map, List.getElem?_range hi] at h2
    exact (Option.some.inj h2).symm
  unfold magBins at hi
  refine ⟨i, h1, by omega, fun k hk => ?_, fun k hk => ?_⟩
  · have := h3 (-|(k : ℝ) * fs / n - f|) (List.mem_map.2 ⟨k, List.mem_range.2 (by unfold magBins; omega), rfl⟩)
    linarith
  · have := h4 k (-|(k : ℝ) * fs / n - f|) hk (by rw [List.getElem?_map, List.getElem?_range (by unfold magBins; omega)]; rfl)
    linarith

theorem ear_delay {G N : ℕ} (azi zen : Fin G → ℝ) {P : Matrix (Fin ((N + 1) ^ 2)) (Fin G) ℝ} (h : IsPinv (shMat N azi zen) P)
    (hrank : LinearIndependent ℝ (shMat N azi zen).col) (S τ : ℕ) (A : ℝ) (hA : A ≠ 0) (a : Arr2)
    (ha : a.rows = List.replicate G ((List.replicate S 0).set τ A)) (hS : Even S ∨ S ≤ 1024) (h1 : 4 ≤ τ) (h2 : τ + 32 < S) (h3 : 2 * τ < max 1024 S)
    (cut : ℕ) (hcut : 5 < cut) (cont : HfCont) (hc : cont = .avg ∨ cont = .angle) :
    magEar (shMat N azi zen) P S a cut cont 0 = .ok ((List.finRange ((N + 1) ^ 2)).map fun q =>
      if q = ⟨0, sq_pos' N⟩ then (List.replicate S 0).set τ (√(4 * π) * A) else List.replicate S 0) := by
  have hn : (0 : ℝ) < magNfft S := by
    have : 1024 ≤ magNfft S := le_max_left _ _
    exact_mod_cast (by omega : 0 < magNfft S)
  have hθ0 : (0 : ℝ) ≤ 2 * π * τ / magNfft S := by positivity
  have hθ1 : 2 * π * τ / magNfft S < π := by
    rw [div_lt_iff₀ hn]
    have h3' : (2 * τ : ℝ) < magNfft S := by exact_mod_cast h3
    nlinarith [pi_pos]
  have hH : (fun (g : Fin G) k => hrtf (magNfft S) a g k) = fun _ k => delayBin A (2 * π * τ / magNfft S) k := by
    funext g k
    refine hrtf_delay _ S τ A (by omega) (le_max_right _ _) a g ?_ k
    rw [ha, List.getElem?_replicate, if_pos g.2]
  have hdelta : magDelta (shMat N azi zen) P (fun _ k => delayBin A (2 * π * τ / magNfft S) k) cut cont = .ok fun _ => -(2 * π * τ / magNfft S) := by
    unfold magDelta
    rcases hc with rfl | rfl
    · simp only
      rw [if_pos hcut]
      congr 1
      funext _
      have : ∀ k, realMul P (fun _ => delayBin A (2 * π * τ / magNfft S) k) ⟨0, sq_pos' N⟩
          = ((√(4 * π) * A : ℝ) : ℂ) * Complex.exp (-(Complex.I * ((2 * π * τ / magNfft S : ℝ) * k))) := by
        intro k
        rw [lin_delay azi zen h hrank]
        simp only [↓reduceIte, delayBin]
        push_cast
        ring
      simp only [this]
      exact meanDiff_delay _ _ (mul_ne_zero (by positivity) hA) hθ0 hθ1 cut
    · simp only
      rw [if_pos hcut]
      congr 1
      funext g
      have : ∀ k, realMul (shMat N azi zen) (realMul P (fun _ => delayBin A (2 * π * τ / magNfft S) k)) g
          = (A : ℂ) * Complex.exp (-(Complex.I * ((2 * π * τ / magNfft S : ℝ) * k))) := by
        intro k
        rw [lin_delay azi zen h hrank, rendered_delay, delayBin]
      simp only [this]
      exact meanDiff_delay _ _ hA hθ0 hθ1 cut
  unfold magEar
  simp only [hH]
  rw [hdelta]
  change (List.mapM _ _ : Py _) = _
  refine mapM_ok_of _ _ _ (by simp) fun i q y hq hy => ?_
  rw [List.getElem?_map, hq] at hy
  rw [← Option.some.inj hy]
  simp only [zero_div, mul_zero, sub_zero]
  simp only [coeffs_delay azi zen h hrank A _ cut (by omega)]
  split_ifs with h0
  · exact taps_delay S τ A (√(4 * π)) hS h1 h2
  · exact taps_zero S hS (by omega)

theorem cut_above (S : ℕ) (fs f : ℝ) (hfs : 0 < fs) (hf : 5.5 * fs / max 1024 S < f) : ∃ cut, magCut (magNfft S) fs f = .ok cut ∧ 5 < cut := by
  obtain ⟨cut, h1, -, h2, -⟩ := cut_spec (magNfft S) fs f
  refine ⟨cut, h1, ?_⟩
  by_contra hle
  have hn : (1024 : ℝ) ≤ magNfft S := by
    have : 1024 ≤ magNfft S := le_max_left _ _
    exact_mod_cast this
  have h6 := h2 6 (by
    have : 1024 ≤ magNfft S := le_max_left _ _
    omega)
  have hc : (cut : ℝ) ≤ 5 := by exact_mod_cast (by omega : cut ≤ 5)
  have hf' : 5.5 * (fs / magNfft S) < f := by
    rw [← mul_div_assoc]
    exact hf
  set d := fs / magNfft S with hd
  have hd0 : 0 < d := by positivity
  rw [mul_div_assoc, mul_div_assoc, ← hd] at h6
  have h7 : |(cut : ℝ) * d - f| = f - cut * d := by
    rw [abs_sub_comm, abs_of_pos]
    nlinarith
  rw [h7] at h6
  push_cast at h6
  rcases abs_cases (6 * d - f) with ⟨h8, -⟩ | ⟨h8, -⟩ <;> rw [h8] at h6 <;> nlinarith

/-- Phase continuation keeps a delay that is common to all directions: if every response of an ear is the same delayed impulse, the decoder
has that impulse, times `√4π`, in its first channel and nothing else, at all frequencies. -/
theorem C89_delay (pinv : (m n : ℕ) → Matrix (Fin m) (Fin n) ℝ → Matrix (Fin n) (Fin m) ℝ) (hpinv : ∀ m n A, IsPinv A (pinv m n A)) (h : HRIRs) (N : ℕ)
    (fTrans : Option ℝ) (cont : HfCont) (hc : cont = .avg ∨ cont = .angle) (Al Ar : ℝ) (hAl : Al ≠ 0) (hAr : Ar ≠ 0) (τl τr : ℕ)
    (hl : h.left.rows = List.replicate h.azi.length ((List.replicate h.left.cols 0).set τl Al))
    (hr : h.right.rows = List.replicate h.azi.length ((List.replicate h.left.cols 0).set τr Ar))
    (hrank : LinearIndependent ℝ (shMat N (fun g : Fin h.azi.length => h.azi.getD g 0) (fun g => h.zen.getD g 0)).col)
    (hS : Even h.left.cols ∨ h.left.cols ≤ 1024) (hτl : 4 ≤ τl ∧ τl + 32 < h.left.cols ∧ 2 * τl < max 1024 h.left.cols)
    (hτr : 4 ≤ τr ∧ τr + 32 < h.left.cols ∧ 2 * τr < max 1024 h.left.cols) (hfs : 0 < h.fs)
    (hf : 5.5 * h.fs / max 1024 h.left.cols < fTrans.getD (N * 600)) :
    maglsBin pinv h N fTrans cont (0, 0) = .ok
      ((List.finRange ((N + 1) ^ 2)).map fun q : Fin ((N + 1) ^ 2) => if (q : ℕ) = 0 then (List.replicate h.left.cols 0).set τl (√(4 * π) * Al) else List.replicate h.left.cols 0,
       (List.finRange ((N + 1) ^ 2)).map fun q : Fin ((N + 1) ^ 2) => if (q : ℕ) = 0 then (List.replicate h.left.cols 0).set τr (√(4 * π) * Ar) else List.replicate h.left.cols 0) := by
  obtain ⟨cut, h1, h2⟩ := cut_above h.left.cols h.fs _ hfs hf
  have e : ∀ q : Fin ((N + 1) ^ 2), (q = ⟨0, sq_pos' N⟩) = ((q : ℕ) = 0) := fun q => by rw [Fin.ext_iff]
  unfold maglsBin
  simp only
  rw [h1]
  change (if _ then _ else _) = _
  rw [if_neg (by rw [hl, hr]; simp),
    ear_delay _ _ (hpinv _ _ _) hrank _ τl Al hAl h.left hl hS hτl.1 hτl.2.1 hτl.2.2 cut h2 cont hc,
    ear_delay _ _ (hpinv _ _ _) hrank _ τr Ar hAr h.right hr hS hτr.1 hτr.2.1 hτr.2.2 cut h2 cont hc]
  simp only [e]
  rfl

/-! ### Gain and ears -/

theorem hrtf_amplify (n : ℕ) (c : ℝ) (a : Arr2) (g k : ℕ) : hrtf n (amplify c a) g k = (c : ℂ) * hrtf n a g k := by
  unfold hrtf Parsa.dft
  rw [Finset.mul_sum]
  refine Finset.sum_congr rfl fun m _ => ?_
  have : ((amplify c a).rows.getD g []).getD m 0 = c * (a.rows.getD g []).getD m 0 := by
    simp only [amplify, List.getD_eq_getElem?_getD, List.getElem?_map]
    rcases a.rows[g]? with _ | r
    · simp
    · simp only [Option.map_some, Option.getD_some, List.getElem?_map]
      rcases r[m]? with _ | v <;> simp
  simp only [this]
  push_cast
  ring

theorem realMul_mul {r c : ℕ} (A : Matrix (Fin r) (Fin c) ℝ) (z : ℂ) (v : Fin c → ℂ) : realMul A (fun j => z * v j) = fun i => z * realMul A v i := by
  funext i
  unfold realMul
  rw [Finset.mul_sum]
  exact Finset.sum_congr rfl fun j _ => by ring

theorem arg_scale {c : ℝ} (hc : 0 < c) (z : ℂ) : ((c : ℂ) * z).arg = z.arg := Complex.arg_real_mul z hc

theorem magStep_scale {G K : ℕ} (Y : Matrix (Fin G) (Fin K) ℝ) (P : Matrix (Fin K) (Fin G) ℝ) (delta : Fin G → ℝ) (prev : Fin K → ℂ) (H : Fin G → ℂ)
    {c : ℝ} (hc : 0 < c) : magStep Y P delta (fun q => (c : ℂ) * prev q) (fun g => (c : ℂ) * H g) = fun q => (c : ℂ) * magStep Y P delta prev H q := by
  unfold magStep
  rw [← realMul_mul]
  congr 1
  funext g
  rw [realMul_mul, arg_scale hc, norm_mul, Complex.norm_real, norm_eq_abs, abs_of_pos hc]
  push_cast
  ring

theorem magCoeffs_scale {G K : ℕ} (Y : Matrix (Fin G) (Fin K) ℝ) (P : Matrix (Fin K) (Fin G) ℝ) (H : Fin G → ℕ → ℂ) (cut : ℕ) (delta : Fin G → ℝ)
    {c : ℝ} (hc : 0 < c) : ∀ k, magCoeffs Y P (fun g k => (c : ℂ) * H g k) cut delta k = fun q => (c : ℂ) * magCoeffs Y P H cut delta k q
  | 0 => by
    simp only [magCoeffs]
    split_ifs
    · exact realMul_mul P c _
    · rw [← magStep_scale Y P delta (fun _ => 0) (fun g => H g 0) hc]
      simp only [mul_zero]
  | k + 1 => by
    simp only [magCoeffs]
    split_ifs
    · exact realMul_mul P c _
    · rw [magCoeffs_scale Y P H cut delta hc k]
      exact magStep_scale Y P delta _ (fun g => H g (k + 1)) hc

theorem magDelta_scale {G N : ℕ} (Y : Matrix (Fin G) (Fin ((N + 1) ^ 2)) ℝ) (P : Matrix (Fin ((N + 1) ^ 2)) (Fin G) ℝ) (H : Fin G → ℕ → ℂ)
    (cut : ℕ) (cont : HfCont) {c : ℝ} (hc : 0 < c) : magDelta Y P (fun g k => (c : ℂ) * H g k) cut cont = magDelta Y P H cut cont := by
  unfold magDelta
  simp only [realMul_mul, arg_scale hc]

theorem magTaps_scale (S n : ℕ) (c : ℝ) (X : ℕ → ℂ) : magTaps S n (fun k => (c : ℂ) * X k) = (magTaps S n X).map fun l => l.map (c * ·) := by
  unfold magTaps
  simp only [irfft_mul]
  split_ifs
  · rfl
  · change _ = Except.ok (List.map _ (List.map _ _))
    rw [List.map_map]
    congr 1
    refine List.map_congr_left fun t _ => ?_
    simp only [Function.comp]
    ring

theorem mapM_scale {α : Type} (F F' : α → Py (List ℝ)) (c : ℝ) (h : ∀ x, F' x = (F x).map fun l => l.map (c * ·)) :
    ∀ l : List α, l.mapM F' = (l.mapM F).map fun m => m.map fun l => l.map (c * ·)
  | [] => rfl
  | x :: xs => by
    rw [List.mapM_cons, List.mapM_cons, h x, mapM_scale F F' c h xs]
    rcases F x with e | a
    · rfl
    · rcases xs.mapM F with e | b <;> rfl

theorem magEar_scale {G N : ℕ} (Y : Matrix (Fin G) (Fin ((N + 1) ^ 2)) ℝ) (P : Matrix (Fin ((N + 1) ^ 2)) (Fin G) ℝ) (S : ℕ) (a : Arr2) (cut : ℕ)
    (cont : HfCont) (d : ℝ) {c : ℝ} (hc : 0 < c) : magEar Y P S (amplify c a) cut cont d = (magEar Y P S a cut cont d).map fun m => m.map fun l => l.map (c * ·) := by
  unfold magEar
  simp only [hrtf_amplify]
  rw [magDelta_scale Y P (fun g k => hrtf (magNfft S) a g k) cut cont hc]
  rcases magDelta Y P (fun g k => hrtf (magNfft S) a g k) cut cont with e | delta
  · rfl
  change (List.mapM _ _ : Py _) = (List.mapM _ _ : Py _).map _
  refine mapM_scale _ _ c (fun q => ?_) _
  simp only [magCoeffs_scale Y P (fun g k => hrtf (magNfft S) a g k) cut _ hc]
  exact magTaps_scale S _ c _

/-- A gain on the responses of both ears is the gain on the decoder. -/
theorem C89_gain (pinv : (m n : ℕ) → Matrix (Fin m) (Fin n) ℝ → Matrix (Fin n) (Fin m) ℝ) (h : HRIRs) (N : ℕ) (fTrans : Option ℝ) (cont : HfCont)
    (d : ℝ × ℝ) (c c' : ℝ) (hc : 0 < c) (hc' : 0 < c') :
    maglsBin pinv { h with left := amplify c h.left, right := amplify c' h.right } N fTrans cont d
      = (maglsBin pinv h N fTrans cont d).map fun p => (p.1.map fun l => l.map (c * ·), p.2.map fun l => l.map (c' * ·)) := by
  unfold maglsBin
  have hcols : (amplify c h.left).cols = h.left.cols := rfl
  simp only [hcols, magEar_scale _ _ _ _ _ _ _ hc, magEar_scale _ _ _ _ _ _ _ hc']
  have e1 : (amplify c h.left).rows.length = h.left.rows.length := by simp [amplify]
  have e2 : (amplify c' h.right).rows.length = h.right.rows.length := by simp [amplify]
  rw [e1, e2]
  rcases magCut (magNfft h.left.cols) h.fs (fTrans.getD (N * 600)) with e | cut
  · rfl
  change (if _ then _ else _) = (if _ then _ else _ : Py _).map _
  split_ifs
  · rfl
  · rcases magEar _ _ h.left.cols h.left cut cont d.1 with e | l
    · rfl
    · change (Except.map _ _ : Py _).map _ = ((Except.map _ _ : Py _)).map _
      rcases magEar _ _ h.left.cols h.right cut cont d.2 with e | r <;> rfl

/-- Exchanging the ears (and their delays) exchanges the two halves of the result. -/
theorem C89_swap (pinv : (m n : ℕ) → Matrix (Fin m) (Fin n) ℝ → Matrix (Fin n) (Fin m) ℝ) (h : HRIRs) (hcols : h.left.cols = h.right.cols) (N : ℕ)
    (fTrans : Option ℝ) (cont : HfCont) (d : ℝ × ℝ) (l r : List (List ℝ)) (hok : maglsBin pinv h N fTrans cont d = .ok (l, r)) :
    maglsBin pinv { h with left := h.right, right := h.left } N fTrans cont d.swap = .ok (r, l) := by
  unfold maglsBin at hok ⊢
  simp only [← hcols] at hok ⊢
  rcases hcut : magCut (magNfft h.left.cols) h.fs (fTrans.getD (N * 600)) with e | cut
  · rw [hcut] at hok; cases hok
  rw [hcut] at hok
  change (if _ then _ else _) = _ at hok
  change (if _ then _ else _) = _
  split_ifs at hok with hlen
  rw [if_neg (by tauto)]
  set Y := shMat N (fun g : Fin h.azi.length => h.azi.getD g 0) (fun g => h.zen.getD g 0)
  rcases hL : magEar Y (pinv _ _ Y) h.left.cols h.left cut cont d.1 with e | l'
  · rw [hL] at hok; cases hok
  rcases hR : magEar Y (pinv _ _ Y) h.left.cols h.right cut cont d.2 with e | r'
  · rw [hL, hR] at hok; cases hok
  rw [hL, hR] at hok
  cases hok
  have h1 : magEar Y (pinv _ _ Y) h.left.cols h.right cut cont d.swap.1 = .ok r := hR
  have h2 : magEar Y (pinv _ _ Y) h.left.cols h.left cut cont d.swap.2 = .ok l := hL
  rw [h1, h2]
  rfl

/-! ### What is fitted -/

/-- Specification of the coefficients of one ear: below `cut` the best fit of the responses; from there on the best fit of targets with the magnitudes of the
responses, whose phase is the phase rendered at the previous frequency plus a constant step. -/
structure EarFit {G K : ℕ} (Y : Matrix (Fin G) (Fin K) ℝ) (H : Fin G → ℕ → ℂ) (cut : ℕ) (step : Fin G → ℝ) (C : ℕ → Fin K → ℂ) : Prop where
  low : ∀ k < cut, Fits Y (fun g => H g k) (C k)
  high : ∀ k, cut ≤ k + 1 → ∃ t : Fin G → ℂ, Fits Y t (C (k + 1)) ∧
    ∀ g, t g = (‖H g (k + 1)‖ : ℂ) * Complex.exp (Complex.I * ((∑ q, (Y g q : ℂ) * C k q).arg + step g : ℝ))

/-- Specification: `x` is a real signal of `2h` samples with the spectrum `X` (real parts at the two ends). -/
def HasSpectrum (h : ℕ) (x : ℕ → ℝ) (X : ℕ → ℂ) : Prop :=
  ∀ k ≤ h, ∑ m ∈ Finset.range (2 * h), (x m : ℂ) * Complex.exp (-(2 * π * Complex.I * (k * m) / (2 * h : ℕ))) = if k = 0 ∨ k = h then ((X k).re : ℂ) else X k

theorem coeffs_fit {G K : ℕ} {Y : Matrix (Fin G) (Fin K) ℝ} {P : Matrix (Fin K) (Fin G) ℝ} (h : IsPinv Y P) (H : Fin G → ℕ → ℂ) (cut : ℕ) (step : Fin G → ℝ) :
    EarFit Y H cut step (magCoeffs Y P H cut step) where
  low k hk := by
    cases k with
    | zero => rw [magCoeffs, if_pos hk]; exact pinv_fits h _
    | succ k => rw [magCoeffs, if_pos hk]; exact pinv_fits h _
  high k hk := by
    rw [magCoeffs, if_neg (by omega)]
    exact ⟨_, pinv_fits h _, fun g => rfl⟩

theorem hanning_range (M i : ℕ) : 0 ≤ hanning M i ∧ hanning M i ≤ 1 := by
  unfold hanning
  have h1 := neg_one_le_cos (2 * π * i / (M - 1 : ℕ))
  have h2 := cos_le_one (2 * π * i / (M - 1 : ℕ))
  constructor <;> norm_num <;> linarith

theorem magTaper_range (L t : ℕ) : 0 ≤ magTaper L t ∧ magTaper L t ≤ 1 := by
  unfold magTaper
  have h1 : ∀ (p : Prop) [Decidable p] (M i : ℕ), 0 ≤ (if p then hanning M i else 1) ∧ (if p then hanning M i else 1) ≤ 1 := by
    intro p _ M i
    split_ifs
    · exact hanning_range M i
    · norm_num
  have a := h1 (L - 32 ≤ t) 64 (32 + (t - (L - 32)))
  have b := h1 (t < 4) 8 t
  exact ⟨mul_nonneg a.1 b.1, mul_le_one₀ a.2 b.1 b.2⟩

theorem magTaper_first (L : ℕ) : magTaper L 0 = 0 := by
  unfold magTaper
  rw [if_pos (by norm_num : 0 < 4)]
  simp [hanning]

theorem magTaper_last (L : ℕ) (h : 32 ≤ L) : magTaper L (L - 1) = 0 := by
  unfold magTaper
  have e : 32 + (L - 1 - (L - 32)) = 63 := by omega
  have h0 : hanning 64 63 = 0 := by
    unfold hanning
    have : 2 * π * ((63 : ℕ) : ℝ) / ((64 - 1 : ℕ) : ℝ) = 2 * π := by
      norm_num
    rw [this, cos_two_pi]; norm_num
  rw [if_pos (by omega), e, h0, zero_mul]

/-- Specification: the taps of one channel come from a signal with the given spectrum, unchanged except for the first 4 and the last 32 samples, where they
are reduced, to zero at both ends. -/
structure Tapered (L h : ℕ) (taps : List ℝ) (X : ℕ → ℂ) : Prop where
  len : taps.length = L
  spec : ∃ x : ℕ → ℝ, HasSpectrum h x X ∧ (∀ t, 4 ≤ t → t + 32 < L → taps.getD t 0 = x t) ∧
    ∀ t < L, ∃ w : ℝ, 0 ≤ w ∧ w ≤ 1 ∧ taps.getD t 0 = x t * w
  first : taps.getD 0 0 = 0
  last : taps.getD (L - 1) 0 = 0

theorem taps_tapered (S n : ℕ) (hn : 1024 ≤ n) (X : ℕ → ℂ) (taps : List ℝ) (hok : magTaps S n X = .ok taps) :
    32 ≤ S ∧ Tapered (min S (2 * (n / 2))) (n / 2) taps X := by
  unfold magTaps at hok
  have hb : magBins n - 1 = n / 2 := rfl
  rw [hb] at hok
  simp only at hok
  split_ifs at hok with hL
  have hok := (Except.ok.inj hok).symm
  set L := min S (2 * (n / 2)) with hLdef
  have hget : ∀ t < L, taps.getD t 0 = irfftAt (magBins n) X t * magTaper L t := by
    intro t ht
    rw [hok, List.getD_eq_getElem?_getD, List.getElem?_map, List.getElem?_range ht]
    rfl
  refine ⟨by omega, by rw [hok]; simp, ⟨irfftAt (magBins n) X, ?_, ?_, ?_⟩, ?_, ?_⟩
  · intro k hk
    exact dft_irfft (n / 2) (by omega) X k hk
  · intro t h1 h2
    rw [hget t (by omega), magTaper_mid L t h1 h2, mul_one]
  · exact fun t ht => ⟨magTaper L t, (magTaper_range L t).1, (magTaper_range L t).2, hget t ht⟩
  · rw [hget 0 (by omega), magTaper_first, mul_zero]
  · rw [hget (L - 1) (by omega), magTaper_last L (by omega), mul_zero]

/-- Specification: the index of a frequency nearest to `f`, the lowest one if there are two. -/
def Nearest (n : ℕ) (fs f : ℝ) (cut : ℕ) : Prop :=
  cut ≤ n / 2 ∧ (∀ k ≤ n / 2, |(cut : ℝ) * fs / n - f| ≤ |(k : ℝ) * fs / n - f|) ∧ ∀ k < cut, |(cut : ℝ) * fs / n - f| < |(k : ℝ) * fs / n - f|

/-- Specification of the phase step per frequency: constant over directions except for `angle`, and the given delay for `delay`. -/
def StepOk {G : ℕ} (n : ℕ) (cont : HfCont) (d : ℝ) (step : Fin G → ℝ) : Prop :=
  (cont ≠ .angle → ∀ g g', step g = step g') ∧ (cont = .delay → ∀ g, step g = -(2 * π * d / n))

theorem ear_fit {G N : ℕ} {Y : Matrix (Fin G) (Fin ((N + 1) ^ 2)) ℝ} {P : Matrix (Fin ((N + 1) ^ 2)) (Fin G) ℝ} (h : IsPinv Y P) (S : ℕ) (a : Arr2) (cut : ℕ)
    (cont : HfCont) (d : ℝ) (l : List (List ℝ)) (hok : magEar Y P S a cut cont d = .ok l) :
    32 ≤ S ∧ l.length = (N + 1) ^ 2 ∧ ∃ (step : Fin G → ℝ) (C : ℕ → Fin ((N + 1) ^ 2) → ℂ), StepOk (max 1024 S) cont d step ∧
      EarFit Y (fun g k => hrtf (max 1024 S) a g k) cut step C ∧
      ∀ q : Fin ((N + 1) ^ 2), Tapered (min S (2 * (max 1024 S / 2))) (max 1024 S / 2) (l.getD q []) fun k => C k q := by
  unfold magEar at hok
  simp only at hok
  rcases hd : magDelta Y P (fun (g : Fin G) k => hrtf (magNfft S) a g k) cut cont with e | delta
  · rw [hd] at hok; cases hok
  rw [hd] at hok
  change (List.mapM _ _ : Py _) = _ at hok
  obtain ⟨hlen, hent⟩ := mapM_entries _ _ _ hok
  rw [List.length_finRange] at hlen
  have key : ∀ q : Fin ((N + 1) ^ 2), ∃ y, magTaps S (magNfft S) (fun k => magCoeffs Y P (fun (g : Fin G) k => hrtf (magNfft S) a g k) cut
      (fun g => delta g - 2 * π * (d / magNfft S)) k q) = .ok y ∧ l.getD q [] = y := by
    intro q
    obtain ⟨y, hy, hq⟩ := hent q q (by simp)
    exact ⟨y, hy, by rw [List.getD_eq_getElem?_getD, hq]; rfl⟩
  refine ⟨?_, hlen, fun g => delta g - 2 * π * (d / magNfft S), _, ⟨?_, ?_⟩, coeffs_fit h _ cut _, ?_⟩
  · obtain ⟨y, hy, -⟩ := key ⟨0, sq_pos' N⟩
    exact (taps_tapered S _ (le_max_left _ _) _ _ hy).1
  · intro hc g g'
    unfold magDelta at hd
    cases cont with
    | avg => simp only at hd; split_ifs at hd; cases hd; rfl
    | angle => exact absurd rfl hc
    | delay => cases hd; rfl
    | other => cases hd
  · rintro rfl g
    cases hd
    simp only [magNfft]
    ring
  · intro q
    obtain ⟨y, hy, hq⟩ := key q
    rw [hq]
    exact (taps_tapered S _ (le_max_left _ _) _ _ hy).2

/-- What the decoder is: for every channel of both ears the taps have the spectrum of coefficients that fit the responses below the transition frequency in
the least squares sense, and their magnitudes above; only the first 4 and last 32 taps are reduced, the outermost ones to zero.  An odd number of
samples above 1024 loses its last one. -/
theorem C89_fit (pinv : (m n : ℕ) → Matrix (Fin m) (Fin n) ℝ → Matrix (Fin n) (Fin m) ℝ) (hpinv : ∀ m n A, IsPinv A (pinv m n A)) (h : HRIRs) (N : ℕ)
    (fTrans : Option ℝ) (cont : HfCont) (d : ℝ × ℝ) (l r : List (List ℝ)) (hok : maglsBin pinv h N fTrans cont d = .ok (l, r)) :
    ∃ cut, Nearest (max 1024 h.left.cols) h.fs (fTrans.getD (N * 600)) cut ∧ ∀ p ∈ [(h.left, l, d.1), (h.right, r, d.2)], p.2.1.length = (N + 1) ^ 2 ∧
      ∃ (step : Fin h.azi.length → ℝ) (C : ℕ → Fin ((N + 1) ^ 2) → ℂ), StepOk (max 1024 h.left.cols) cont p.2.2 step ∧
        EarFit (shMat N (fun g : Fin h.azi.length => h.azi.getD g 0) (fun g => h.zen.getD g 0))
          (fun g k => Parsa.dft (max 1024 h.left.cols) (max 1024 h.left.cols) (fun m => (p.1.rows.getD g []).getD m 0) k) cut step C ∧
        ∀ q : Fin ((N + 1) ^ 2), Tapered (if Even h.left.cols ∨ h.left.cols ≤ 1024 then h.left.cols else h.left.cols - 1) (max 1024 h.left.cols / 2)
          (p.2.1.getD q []) fun k => C k q := by
  have hlen : (if Even h.left.cols ∨ h.left.cols ≤ 1024 then h.left.cols else h.left.cols - 1) = min h.left.cols (2 * (max 1024 h.left.cols / 2)) := by
    rcases le_total h.left.cols 1024 with h1 | h1
    · rw [if_pos (.inr h1), max_eq_left h1]; omega
    · rw [max_eq_right h1]
      by_cases he : Even h.left.cols
      · rw [if_pos (.inl he)]
        obtain ⟨m, hm⟩ := he
        omega
      · rw [Nat.not_even_iff_odd] at he
        obtain ⟨m, hm⟩ := he
        rw [if_neg]
        · omega
        · rintro (he | he)
          · rw [hm] at he; exact (Nat.not_even_iff_odd.2 ⟨m, rfl⟩) he
          · omega
  rw [hlen]
  unfold maglsBin at hok
  simp only at hok
  obtain ⟨cut, hc, hn⟩ := cut_spec (magNfft h.left.cols) h.fs (fTrans.getD (N * 600))
  rw [hc] at hok
  change (if _ then _ else _) = _ at hok
  split_ifs at hok
  set Y := shMat N (fun g : Fin h.azi.length => h.azi.getD g 0) (fun g => h.zen.getD g 0)
  rcases hL : magEar Y (pinv _ _ Y) h.left.cols h.left cut cont d.1 with e | l'
  · rw [hL] at hok; cases hok
  rcases hR : magEar Y (pinv _ _ Y) h.left.cols h.right cut cont d.2 with e | r'
  · rw [hL, hR] at hok; cases hok
  rw [hL, hR] at hok
  cases hok
  refine ⟨cut, hn, fun p hp => ?_⟩
  rw [List.mem_cons, List.mem_singleton] at hp
  rcases hp with rfl | rfl
  · exact (ear_fit (hpinv _ _ Y) _ _ _ _ _ _ hL).2
  · exact (ear_fit (hpinv _ _ Y) _ _ _ _ _ _ hR).2

theorem fits_exact {G K : ℕ} {Y : Matrix (Fin G) (Fin K) ℝ} (hrow : LinearIndependent ℝ Y.row) {t : Fin G → ℂ} {c : Fin K → ℂ} (hf : Fits Y t c) (g : Fin G) :
    ∑ q, (Y g q : ℂ) * c q = t g := by
  obtain ⟨B, hB⟩ : ∃ B : Matrix (Fin K) (Fin G) ℝ, Y * B = 1 := by
    obtain ⟨Q, hQ⟩ := exists_pinv Y.transpose
    have h1 := pinv_left hQ hrow
    refine ⟨Q.transpose, ?_⟩
    rw [← Matrix.transpose_transpose Y, ← Matrix.transpose_mul, h1, Matrix.transpose_one]
  have h0 : ∀ g, ∑ q, (Y g q : ℂ) * (realMul B t q) = t g := by
    intro g
    have h1 : ∀ (i : Fin G), (Y.mulVec (B.mulVec fun j => (t j).re)) i = (t i).re := by
      intro i; rw [Matrix.mulVec_mulVec, hB, Matrix.one_mulVec]
    have h2 : ∀ (i : Fin G), (Y.mulVec (B.mulVec fun j => (t j).im)) i = (t i).im := by
      intro i; rw [Matrix.mulVec_mulVec, hB, Matrix.one_mulVec]
    change realMul Y (realMul B t) g = t g
    apply Complex.ext
    · rw [re_realMul, ← h1 g]; congr 1; funext j; exact re_realMul B t j
    · rw [im_realMul, ← h2 g]; congr 1; funext j; exact im_realMul B t j
  have h1 := hf (realMul B t)
  have h2 : ∑ g, ‖∑ q, (Y g q : ℂ) * realMul B t q - t g‖ ^ 2 = 0 := Finset.sum_eq_zero fun g _ => by rw [h0 g, sub_self]; simp
  rw [h2] at h1
  have h3 := (Finset.sum_eq_zero_iff_of_nonneg fun g _ => sq_nonneg (‖∑ q, (Y g q : ℂ) * c q - t g‖)).1 (le_antisymm h1 (Finset.sum_nonneg fun g _ => sq_nonneg _)) g (Finset.mem_univ _)
  exact sub_eq_zero.1 (norm_eq_zero.1 (pow_eq_zero_iff two_ne_zero |>.1 h3))

/-- Where there are no more directions than channels (independent rows), the rendered magnitude is that of the responses at every frequency but possibly 0. -/
theorem C89_magnitude {G K : ℕ} {Y : Matrix (Fin G) (Fin K) ℝ} (hrow : LinearIndependent ℝ Y.row) {H : Fin G → ℕ → ℂ} {cut : ℕ} {step : Fin G → ℝ}
    {C : ℕ → Fin K → ℂ} (h : EarFit Y H cut step C) (g : Fin G) (k : ℕ) (hk : 0 < cut ∨ 0 < k) : ‖∑ q, (Y g q : ℂ) * C k q‖ = ‖H g k‖ := by
  by_cases hc : k < cut
  · rw [fits_exact hrow (h.low k hc)]
  · obtain ⟨k, rfl⟩ : ∃ j, k = j + 1 := ⟨k - 1, by omega⟩
    obtain ⟨t, ht, hv⟩ := h.high k (by omega)
    rw [fits_exact hrow ht, hv, norm_mul, mul_comm Complex.I, Complex.norm_exp_ofReal_mul_I, mul_one]
    simp

/-! ### Errors -/

theorem cut_below (S : ℕ) (fs f : ℝ) (hfs : 0 < fs) (hf : f ≤ 5.5 * fs / max 1024 S) : ∃ cut, magCut (magNfft S) fs f = .ok cut ∧ ¬ 5 < cut := by
  obtain ⟨cut, h1, -, -, h2⟩ := cut_spec (magNfft S) fs f
  refine ⟨cut, h1, fun hlt => ?_⟩
  have hn : (1024 : ℝ) ≤ magNfft S := by
    have : 1024 ≤ magNfft S := le_max_left _ _
    exact_mod_cast this
  have h5 := h2 5 hlt
  have hc : (6 : ℝ) ≤ cut := by exact_mod_cast (by omega : 6 ≤ cut)
  have hf' : f ≤ 5.5 * (fs / magNfft S) := by
    rw [← mul_div_assoc]
    exact hf
  set d := fs / magNfft S with hd
  have hd0 : 0 < d := by positivity
  rw [mul_div_assoc, mul_div_assoc, ← hd] at h5
  have h7 : |(cut : ℝ) * d - f| = cut * d - f := by
    rw [abs_of_pos]
    nlinarith
  rw [h7] at h5
  push_cast at h5
  rcases abs_cases (5 * d - f) with ⟨h8, -⟩ | ⟨h8, -⟩ <;> rw [h8] at h5 <;> nlinarith

/-- The calls that are rejected: an unknown continuation, an estimated continuation with fewer than 6 frequencies below the transition – in particular order 0
with the default transition –, and responses of fewer than 32 samples. -/
theorem C89_errors (pinv : (m n : ℕ) → Matrix (Fin m) (Fin n) ℝ → Matrix (Fin n) (Fin m) ℝ) (h : HRIRs) (hl : h.left.rows.length = h.azi.length)
    (hr : h.right.rows.length = h.azi.length) (hfs : 0 < h.fs) (N : ℕ) (fTrans : Option ℝ) (d : ℝ × ℝ) :
    maglsBin pinv h N fTrans .other d = .error .valueError ∧
    (∀ cont, cont = .avg ∨ cont = .angle → fTrans.getD (N * 600) ≤ 5.5 * h.fs / max 1024 h.left.cols → maglsBin pinv h N fTrans cont d = .error .assertionError) ∧
    (∀ cont, cont = .avg ∨ cont = .angle → maglsBin pinv h 0 none cont d = .error .assertionError) ∧
    (∀ cont, h.left.cols < 32 → 5.5 * h.fs / max 1024 h.left.cols < fTrans.getD (N * 600) → maglsBin pinv h N fTrans cont d = .error .valueError) := by
  have hlen : ¬ (h.left.rows.length ≠ h.azi.length ∨ h.right.rows.length ≠ h.azi.length) := by rw [hl, hr]; simp
  have low : ∀ (N : ℕ) (fTrans : Option ℝ) cont, cont = HfCont.avg ∨ cont = HfCont.angle → fTrans.getD (N * 600) ≤ 5.5 * h.fs / max 1024 h.left.cols →
      maglsBin pinv h N fTrans cont d = .error .assertionError := by
    intro N fTrans cont hc hf
    obtain ⟨cut, h1, h2⟩ := cut_below h.left.cols h.fs _ hfs hf
    unfold maglsBin
    simp only
    rw [h1]
    change (if _ then _ else _) = _
    rw [if_neg hlen]
    unfold magEar magDelta
    rcases hc with rfl | rfl
    · simp only
      rw [if_neg h2]; rfl
    · simp only
      rw [if_neg h2]; rfl
  refine ⟨?_, low N fTrans, fun cont hc => low 0 none cont hc ?_, fun cont hS hf => ?_⟩
  · obtain ⟨cut, h1, -⟩ := cut_spec (magNfft h.left.cols) h.fs (fTrans.getD (N * 600))
    unfold maglsBin
    simp only
    rw [h1]
    change (if _ then _ else _) = _
    rw [if_neg hlen]
    rfl
  · simp only [Option.getD_none, Nat.cast_zero, zero_mul]
    positivity
  · obtain ⟨cut, h1, h2⟩ := cut_above h.left.cols h.fs _ hfs hf
    unfold maglsBin
    simp only
    rw [h1]
    change (if _ then _ else _) = _
    rw [if_neg hlen]
    have key : ∀ {G : ℕ} (Y : Matrix (Fin G) (Fin ((N + 1) ^ 2)) ℝ) (P : Matrix (Fin ((N + 1) ^ 2)) (Fin G) ℝ) (a : Arr2) (d : ℝ),
        magEar Y P h.left.cols a cut cont d = .error .valueError := by
      intro G Y P a d
      have ht : ∀ X, magTaps h.left.cols (magNfft h.left.cols) X = .error .valueError := by
        intro X
        unfold magTaps
        simp only
        rw [if_pos (by omega)]
      have hm : ∀ delta : Fin G → ℝ, ((List.finRange ((N + 1) ^ 2)).mapM fun q : Fin ((N + 1) ^ 2) => magTaps h.left.cols (magNfft h.left.cols) fun k =>
          magCoeffs Y P (fun (g : Fin G) k => hrtf (magNfft h.left.cols) a g k) cut delta k q) = .error .valueError := by
        intro delta
        obtain ⟨m, hm⟩ : ∃ m, (N + 1) ^ 2 = m + 1 := ⟨(N + 1) ^ 2 - 1, by have := sq_pos' N; omega⟩
        simp only [ht]
        rw [hm, List.finRange_succ, List.mapM_cons]
        rfl
      unfold magEar
      simp only
      rcases hd : magDelta Y P (fun (g : Fin G) k => hrtf (magNfft h.left.cols) a g k) cut cont with e | delta
      · unfold magDelta at hd
        cases cont with
        | avg => simp only at hd; rw [if_pos h2] at hd; cases hd
        | angle => simp only at hd; rw [if_pos h2] at hd; cases hd
        | delay => cases hd
        | other => cases hd; rfl
      · exact hm _
    rw [key]
    rfl

theorem getD_ofFn' {n : ℕ} (f : Fin n → ℝ) (i : ℕ) (h : i < n) : (List.ofFn f).getD i 0 = f ⟨i, h⟩ := by
  rw [List.getD_eq_getElem?_getD, List.getElem?_ofFn, dif_pos h]
  rfl

theorem getD_impulse (S τ : ℕ) (A : ℝ) (h : τ < S) : ((List.replicate S 0).set τ A).getD τ 0 = A := by
  rw [List.getD_eq_getElem?_getD, List.getElem?_set]
  simp [h]

/-- The responses of 8 directions (the cube) with 256 samples are impulses after 20 samples at the left and 30 at the right ear. -/
theorem cube_magls (pinv : (m n : ℕ) → Matrix (Fin m) (Fin n) ℝ → Matrix (Fin n) (Fin m) ℝ) (hpinv : ∀ m n A, IsPinv A (pinv m n A)) :
    ∃ (h : HRIRs) (l r : List (List ℝ)), maglsBin pinv h 1 none .avg (0, 0) = .ok (l, r) ∧ h.azi.length = 8 ∧ h.left.cols = h.right.cols ∧
      (l.getD 0 []).getD 20 0 = √(4 * π) * 1 ∧ (r.getD 0 []).getD 30 0 = √(4 * π) * 0.5 := by
  obtain ⟨azi, zen, hd⟩ := cube_design
  have hla : (List.ofFn azi).length = 8 := by simp
  refine ⟨⟨⟨256, List.replicate 8 ((List.replicate 256 0).set 20 1)⟩, ⟨256, List.replicate 8 ((List.replicate 256 0).set 30 0.5)⟩, List.ofFn azi, List.ofFn zen,
    48000, 8, 256⟩, _, _, C89_delay pinv hpinv _ 1 none .avg (.inl rfl) 1 0.5 one_ne_zero (by norm_num) 20 30 (by rw [hla]) (by rw [hla]) ?_ (.inr (by norm_num))
    (by norm_num) (by norm_num) (by norm_num) (by norm_num), hla, rfl, ?_, ?_⟩
  · have h8 := design_rank (N := 1) hd (by norm_num)
    have e : ∀ (n : ℕ) (hn : n = 8) (a z : Fin n → ℝ), (∀ i : Fin n, a i = azi (Fin.cast hn i)) → (∀ i : Fin n, z i = zen (Fin.cast hn i)) →
        LinearIndependent ℝ (shMat 1 a z).col := by
      intro n hn a z ha hz
      subst hn
      have h1 : a = azi := funext ha
      have h2 : z = zen := funext hz
      rw [h1, h2]
      exact h8
    exact e _ hla _ _ (fun i => getD_ofFn' azi i (Fin.cast hla i).2) (fun i => getD_ofFn' zen i (Fin.cast hla i).2)
  · exact getD_impulse 256 20 _ (by norm_num)
  · exact getD_impulse 256 30 _ (by norm_num)

/-- The hypotheses of `C89_delay`, `C89_fit` and `C89_swap` are met. -/
example : ∃ (pinv : (m n : ℕ) → Matrix (Fin m) (Fin n) ℝ → Matrix (Fin n) (Fin m) ℝ) (h : HRIRs) (l r : List (List ℝ)),
    (∀ m n A, IsPinv A (pinv m n A)) ∧ maglsBin pinv h 1 none .avg (0, 0) = .ok (l, r) ∧ l.length = (1 + 1) ^ 2 ∧
      maglsBin pinv { h with left := h.right, right := h.left } 1 none .avg (0, 0) = .ok (r, l) := by
  choose pinv hpinv using fun (m n : ℕ) (A : Matrix (Fin m) (Fin n) ℝ) => exists_pinv A
  obtain ⟨h, l, r, hok, -, hcols, -⟩ := cube_magls pinv hpinv
  obtain ⟨cut, -, hfit⟩ := C89_fit pinv hpinv h 1 none .avg (0, 0) l r hok
  exact ⟨pinv, h, l, r, hpinv, hok, (hfit (h.left, l, 0) (by simp)).1, C89_swap pinv h hcols 1 none .avg (0, 0) l r hok⟩

/-- `C89_gain`: the left ear three times as loud. -/
example (pinv : (m n : ℕ) → Matrix (Fin m) (Fin n) ℝ → Matrix (Fin n) (Fin m) ℝ) (h : HRIRs) :
    maglsBin pinv { h with left := amplify 3 h.left, right := amplify 1 h.right } 1 none .avg (0, 0)
      = (maglsBin pinv h 1 none .avg (0, 0)).map fun p => (p.1.map fun l => l.map (3 * ·), p.2.map fun l => l.map (1 * ·)) :=
  C89_gain pinv h 1 none .avg (0, 0) 3 1 (by norm_num) one_pos

/-- `C89_magnitude` for a regular two by two matrix and any responses. -/
example (H : Fin 2 → ℕ → ℂ) (step : Fin 2 → ℝ) : ∃ C : ℕ → Fin 2 → ℂ, EarFit !![1, 1; 0, 1] H 3 step C ∧
    ‖∑ q, ((!![1, 1; 0, 1] : Matrix (Fin 2) (Fin 2) ℝ) 0 q : ℂ) * C 5 q‖ = ‖H 0 5‖ := by
  obtain ⟨P, hP⟩ := exists_pinv (!![1, 1; 0, 1] : Matrix (Fin 2) (Fin 2) ℝ)
  have hfit := coeffs_fit hP H 3 step
  have hrow : LinearIndependent ℝ (!![1, 1; 0, 1] : Matrix (Fin 2) (Fin 2) ℝ).row := 
    Matrix.linearIndependent_rows_of_det_ne_zero (A := !![1, 1; 0, 1]) (by rw [Matrix.det_fin_two]; norm_num)
  exact ⟨_, hfit, C89_magnitude hrow hfit 0 5 (.inl (by norm_num))⟩

end Verif.Props
