import Verif.Proofs.Eigh
import Verif.Props.ShRotation

/-! Covariance separation and source count: C64, C65. -/

namespace Verif.Props
open Parsa Matrix Real

/-- `eigh` meets its specification on `S`. -/
abbrev EighOf (eigh : (n : ℕ) → Matrix (Fin n) (Fin n) ℝ → (Fin n → ℝ) × Matrix (Fin n) (Fin n) ℝ) {L : ℕ} (S : Matrix (Fin L) (Fin L) ℝ) : Prop :=
  IsEigh S (eigh L S).1 (eigh L S).2

/-- Some `eigh` meets its specification on all symmetric matrices. -/
theorem eigh_exists : ∃ eigh : (n : ℕ) → Matrix (Fin n) (Fin n) ℝ → (Fin n → ℝ) × Matrix (Fin n) (Fin n) ℝ,
    ∀ (n : ℕ) (S : Matrix (Fin n) (Fin n) ℝ), Sᵀ = S → EighOf eigh S := by
  classical
  choose w v h using fun (n : ℕ) (S : Matrix (Fin n) (Fin n) ℝ) (hS : Sᵀ = S) => exists_eigh S hS
  refine ⟨fun n S => if hS : Sᵀ = S then (w n S hS, v n S hS) else (0, 0), fun n S hS => ?_⟩
  simp only [EighOf, hS, dite_true]
  exact h n S hS

theorem separateCov_some (eigh) {L : ℕ} (S : Matrix (Fin L) (Fin L) ℝ) (k : ℤ) :
    separateCov eigh S (some k) = splitCov (eigh L S).1 (eigh L S).2 k := by
  unfold separateCov
  rw [dif_pos rfl]
  rfl

theorem splitCov_sum {L : ℕ} {S v : Matrix (Fin L) (Fin L) ℝ} {w : Fin L → ℝ} (he : IsEigh S w v) (k : ℤ) (Spp Snn : Matrix (Fin L) (Fin L) ℝ)
    (h : splitCov w v k = .ok (Spp, Snn)) : Spp + Snn = S := by
  unfold splitCov at h
  rcases hq : npIndex w (-(k + 1)) with e | wr
  · rw [hq] at h; cases h
  · rw [hq] at h
    simp only [Except.map, Except.ok.injEq, Prod.mk.injEq] at h
    obtain ⟨h1, h2⟩ := h
    rw [← h1, ← h2, tail_diag v (fun i => w i - wr), ← Matrix.add_mul, ← Matrix.mul_add, diagonal_add]
    conv_rhs => rw [he.decomp]
    congr 3
    funext i
    split_ifs <;> ring

/-- **C64**: the two parts always add up to the covariance, for every split point that is accepted — zero, negative or chosen by
`estimate_num_sources` included. -/
theorem C64_sum (eigh) {L : ℕ} (S : Matrix (Fin L) (Fin L) ℝ) (he : EighOf eigh S) (k : Option ℤ) (Spp Snn : Matrix (Fin L) (Fin L) ℝ)
    (h : separateCov eigh S k = .ok (Spp, Snn)) : Spp + Snn = S := by
  cases k with
  | some k => rw [separateCov_some] at h; exact splitCov_sum he k Spp Snn h
  | none =>
    unfold separateCov at h
    rw [dif_pos rfl] at h
    change (estimateNumSources (List.ofFn (eigh L S).1) none).bind _ = _ at h
    rcases hq : estimateNumSources (List.ofFn (eigh L S).1) none with e | k
    · rw [hq] at h; cases h
    · rw [hq] at h; exact splitCov_sum he k Spp Snn h

theorem npIndex_ok {L : ℕ} (w : Fin L → ℝ) (i : ℤ) : (∃ x, npIndex w i = .ok x) ↔ -(L : ℤ) ≤ i ∧ i < L := by
  unfold npIndex
  split_ifs with h1 h2
  · exact ⟨fun _ => by omega, fun _ => ⟨_, rfl⟩⟩
  · exact ⟨fun _ => by omega, fun _ => ⟨_, rfl⟩⟩
  · refine ⟨?_, fun h => by omega⟩
    rintro ⟨x, h⟩
    cases h

/-- **C64**: exactly the split points from `-L` to `L-1` are accepted, the others raise `IndexError`. -/
theorem C64_accepts (eigh) {L : ℕ} (S : Matrix (Fin L) (Fin L) ℝ) (k : ℤ) :
    ((∃ r, separateCov eigh S (some k) = .ok r) ↔ -(L : ℤ) ≤ k ∧ k < L) ∧
    (¬ (-(L : ℤ) ≤ k ∧ k < L) → separateCov eigh S (some k) = .error .indexError) := by
  rw [separateCov_some]
  unfold splitCov
  have h := npIndex_ok (eigh L S).1 (-(k + 1))
  have h' : (∃ x, npIndex (eigh L S).1 (-(k + 1)) = .ok x) ↔ -(L : ℤ) ≤ k ∧ k < L := by rw [h]; omega
  constructor
  · rw [← h']
    rcases npIndex (eigh L S).1 (-(k + 1)) with e | x
    · constructor <;> (rintro ⟨r, h⟩; cases h)
    · exact ⟨fun _ => ⟨_, rfl⟩, fun _ => ⟨_, rfl⟩⟩
  · intro hk
    have : npIndex (eigh L S).1 (-(k + 1)) = .error .indexError := by
      unfold npIndex
      rw [dif_neg (by omega), dif_neg (by omega)]
    rw [this]
    rfl

/-- `C64_sum`: the hypotheses hold for a two channel covariance and the split point one. -/
example : ∃ eigh : (n : ℕ) → Matrix (Fin n) (Fin n) ℝ → (Fin n → ℝ) × Matrix (Fin n) (Fin n) ℝ, ∃ Spp Snn,
    separateCov eigh !![2, 1; 1, 3] (some 1) = .ok (Spp, Snn) ∧ Spp + Snn = !![2, 1; 1, 3] := by
  obtain ⟨eigh, he⟩ := eigh_exists
  obtain ⟨⟨Spp, Snn⟩, h⟩ := ((C64_accepts eigh !![(2 : ℝ), 1; 1, 3] 1).1).2 (by norm_num)
  refine ⟨eigh, Spp, Snn, h, C64_sum eigh _ (he 2 _ ?_) _ _ _ h⟩
  ext i j; fin_cases i <;> fin_cases j <;> rfl

/-- **C64**: a covariance that is not square is rejected. -/
theorem C64_reject (eigh) {L M : ℕ} (h : L ≠ M) (S : Matrix (Fin L) (Fin M) ℝ) (k : Option ℤ) : separateCov eigh S k = .error .assertionError := by
  unfold separateCov; rw [dif_neg h]

example : (2 : ℕ) ≠ 3 := by decide

/-- **C64**: for `1 ≤ k < L` and a positive semidefinite covariance both parts are positive semidefinite, the signal part has rank at most `k`, and
the eigenvalues of the noise part are those of the covariance with the `k` largest replaced by the next one. -/
theorem C64_split (eigh) {L : ℕ} (S : Matrix (Fin L) (Fin L) ℝ) (hS : S.PosSemidef) (he : EighOf eigh S) (k : ℕ) (h1 : 1 ≤ k) (h2 : k < L) :
    ∃ Spp Snn, separateCov eigh S (some k) = .ok (Spp, Snn) ∧ Spp + Snn = S ∧ Spp.PosSemidef ∧ Snn.PosSemidef ∧ Spp.rank ≤ k ∧
      ∀ lam : Fin L → ℝ, Monotone lam → S.charpoly = ∏ i, (Polynomial.X - Polynomial.C (lam i)) →
        Snn.charpoly = ∏ i : Fin L, (Polynomial.X - Polynomial.C (lam (if L - k ≤ (i : ℕ) then ⟨L - k - 1, by omega⟩ else i))) := by
  have hidx : npIndex (eigh L S).1 (-((k : ℤ) + 1)) = .ok ((eigh L S).1 ⟨L - k - 1, by omega⟩) := by
    unfold npIndex
    rw [dif_neg (by omega), dif_pos (by omega)]
    exact congrArg (fun i => Except.ok ((eigh L S).1 i)) (Fin.ext (show ((L : ℤ) + -((k : ℤ) + 1)).toNat = L - k - 1 by omega))
  have hcut : sliceBound L (-(k : ℤ)) = L - k := by
    unfold sliceBound
    rw [if_pos (by omega)]
    omega
  refine ⟨_, _, by rw [separateCov_some, splitCov, hidx, hcut]; rfl, ?_, ?_, ?_, ?_, ?_⟩
  · refine splitCov_sum he k _ _ ?_
    rw [splitCov, hidx, hcut]; rfl
  · rw [tail_diag (eigh L S).2 (fun i => (eigh L S).1 i - (eigh L S).1 ⟨L - k - 1, by omega⟩)]
    refine posSemidef_conj _ _ fun i => ?_
    split_ifs with hi
    · exact sub_nonneg.mpr (he.mono (Fin.mk_le_of_le_val (by omega)))
    · exact le_rfl
  · refine posSemidef_conj _ _ fun i => ?_
    split_ifs <;> exact he.nonneg hS _
  · refine (rank_mul_le_left _ _).trans ((rank_mul_le_left _ _).trans ((rank_le_card_width _).trans ?_))
    simp; omega
  · intro lam hl hc
    have hw : lam = (eigh L S).1 := by
      refine eq_of_prod _ _ hl he.mono ?_
      rw [← hc, ← charpoly_conj (eigh L S).2 (eigh L S).1 he.orth, ← he.decomp]
    rw [charpoly_conj _ _ he.orth, hw]
    refine Finset.prod_congr rfl fun i _ => ?_
    split_ifs <;> rfl

/-- A positive semidefinite covariance of two channels. -/
example : (1 : Matrix (Fin 2) (Fin 2) ℝ).PosSemidef ∧ (1 : ℕ) < 2 := ⟨PosSemidef.one, by decide⟩

/-- **C64**: at split point zero the noise part is the largest eigenvalue times the identity, and the signal part is negative semidefinite (it is
minus a positive semidefinite matrix) — the parts still add up to the covariance. -/
theorem C64_zero (eigh) {L : ℕ} (S : Matrix (Fin L) (Fin L) ℝ) (he : EighOf eigh S) (hL : 0 < L) :
    ∃ Spp Snn, separateCov eigh S (some 0) = .ok (Spp, Snn) ∧ Spp + Snn = S ∧ Snn = (eigh L S).1 ⟨L - 1, by omega⟩ • 1 ∧ (-Spp).PosSemidef := by
  have hidx : npIndex (eigh L S).1 (-(0 + 1)) = .ok ((eigh L S).1 ⟨L - 1, by omega⟩) := by
    unfold npIndex
    rw [dif_neg (by omega), dif_pos (by omega)]
    exact congrArg (fun i => Except.ok ((eigh L S).1 i)) (Fin.ext (show ((L : ℤ) + -(0 + 1)).toNat = L - 1 by omega))
  have hcut : sliceBound L (-0) = 0 := by simp [sliceBound]
  refine ⟨_, _, by rw [separateCov_some, splitCov, hidx, hcut]; rfl, ?_, ?_, ?_⟩
  · refine splitCov_sum he 0 _ _ ?_
    rw [splitCov, hidx, hcut]; rfl
  · have : (diagonal fun i : Fin L => if 0 ≤ (i : ℕ) then (eigh L S).1 ⟨L - 1, by omega⟩ else (eigh L S).1 i) = (eigh L S).1 ⟨L - 1, by omega⟩ • (1 : Matrix (Fin L) (Fin L) ℝ) := by
      ext i j
      simp [diagonal_apply, one_apply]
    rw [this, Matrix.mul_smul, Matrix.mul_one, Matrix.smul_mul, he.orth']
  · rw [tail_diag (eigh L S).2 (fun i => (eigh L S).1 i - (eigh L S).1 ⟨L - 1, by omega⟩), ← Matrix.neg_mul, ← Matrix.mul_neg, diagonal_neg]
    refine posSemidef_conj _ _ fun i => ?_
    simp only [zero_le, if_true, Pi.neg_apply]
    have := he.mono (show i ≤ ⟨L - 1, by omega⟩ from Fin.le_def.mpr (by have := i.2; simp only; omega))
    linarith

/-- `C64_zero` for a two channel covariance. -/
example : ∃ eigh : (n : ℕ) → Matrix (Fin n) (Fin n) ℝ → (Fin n → ℝ) × Matrix (Fin n) (Fin n) ℝ, ∃ Spp Snn,
    separateCov eigh !![2, 1; 1, 3] (some 0) = .ok (Spp, Snn) ∧ (-Spp).PosSemidef := by
  obtain ⟨eigh, he⟩ := eigh_exists
  obtain ⟨Spp, Snn, h, -, -, h'⟩ := C64_zero eigh !![(2 : ℝ), 1; 1, 3] (he 2 _ (by ext i j; fin_cases i <;> fin_cases j <;> rfl)) (by norm_num)
  exact ⟨eigh, Spp, Snn, h, h'⟩

/-! ### C65 -/

theorem jumps_length (w : List ℝ) (a : ℝ) : (jumps w a).length = w.length - 1 := by
  simp [jumps]

theorem boolArgmax_lt (b : List Bool) (hb : b ≠ []) : ∃ n, boolArgmax b = .ok n ∧ n < b.length := by
  cases b with
  | nil => exact absurd rfl hb
  | cons x xs =>
    refine ⟨_, rfl, ?_⟩
    split_ifs with h
    · exact List.idxOf_lt_length_iff.mpr h
    · simp

theorem estimate_eq (w : List ℝ) (hw : w ≠ []) (a : Option ℝ) : estimateNumSources w a =
    if npVar w < a.getD (1 + 2 / w.length) then .ok 0
    else (boolArgmax (jumps w (a.getD (1 + 2 / w.length)))).map fun cn : ℕ => (w.length : ℤ) - 1 - cn := by
  unfold estimateNumSources
  rw [if_neg hw]

theorem npVar_single (x : ℝ) : npVar [x] = 0 := by simp [npVar]

/-- **C65**: for two or more eigenvalues, and for one eigenvalue with a positive threshold (such as the default), the estimate is an integer from
0 to `L-1`. -/
theorem C65_range (w : List ℝ) (a : Option ℝ) (h : 2 ≤ w.length ∨ (w.length = 1 ∧ ∀ t ∈ a, 0 < t)) :
    ∃ n : ℕ, estimateNumSources w a = .ok (n : ℤ) ∧ n ≤ w.length - 1 := by
  have hw : w ≠ [] := by rintro rfl; simp at h
  rw [estimate_eq w hw]
  by_cases hv : npVar w < a.getD (1 + 2 / w.length)
  · rw [if_pos hv]; exact ⟨0, rfl, by omega⟩
  · rw [if_neg hv]
    rcases h with h | ⟨h1, h2⟩
    · obtain ⟨n, hn, hlt⟩ := boolArgmax_lt (jumps w (a.getD (1 + 2 / w.length))) (by
        intro he; have := jumps_length w (a.getD (1 + 2 / w.length)); rw [he] at this; simp at this; omega)
      rw [jumps_length] at hlt
      refine ⟨w.length - 1 - n, ?_, by omega⟩
      rw [hn]
      change Except.ok ((w.length : ℤ) - 1 - (n : ℤ)) = _
      congr 1
      omega
    · exfalso; apply hv
      obtain ⟨x, rfl⟩ := List.length_eq_one_iff.mp h1
      rw [npVar_single]
      cases a with
      | none => norm_num
      | some t => exact h2 t rfl

example : 2 ≤ ([1, 2, 5] : List ℝ).length := by simp

/-- **C65**: without eigenvalues the call raises, and a single eigenvalue with a threshold that is not positive does too. -/
theorem C65_reject : estimateNumSources [] none = .error .zeroDivisionError ∧ (∀ t, estimateNumSources [] (some t) = .error .valueError) ∧
    ∀ x t : ℝ, t ≤ 0 → estimateNumSources [x] (some t) = .error .valueError := by
  refine ⟨rfl, fun t => rfl, fun x t ht => ?_⟩
  rw [estimate_eq _ (by simp), if_neg (by rw [npVar_single]; simpa using ht)]
  rfl

example : (-1 : ℝ) ≤ 0 := by norm_num

/-- **C65**: the estimate is zero when the variance of the eigenvalues (about their mean) is below the threshold. -/
theorem C65_zero (w : List ℝ) (a : Option ℝ) (hw : w ≠ []) (m : ℝ) (hm : m * w.length = w.sum)
    (h : (w.map fun x => (x - m) ^ 2).sum < a.getD (1 + 2 / w.length) * w.length) : estimateNumSources w a = .ok 0 := by
  have hl : (0 : ℝ) < w.length := by exact_mod_cast List.length_pos_iff.mpr hw
  have hmean : w.sum / w.length = m := by rw [← hm]; field_simp
  rw [estimate_eq w hw, if_pos]
  unfold npVar
  rw [hmean, div_lt_iff₀ hl]
  exact h

example : (1 : ℝ) * ([1, 1] : List ℝ).length = ([1, 1] : List ℝ).sum ∧ (([1, 1] : List ℝ).map fun x => (x - 1) ^ 2).sum < 3 := by norm_num

theorem jumps_get (w : List ℝ) (a : ℝ) (i : ℕ) (hi : i + 1 < w.length) : ((jumps w a)[i]? = some true) ↔ ratioExceeds a (w.getD i 0) (w.getD (i + 1) 0) := by
  classical
  unfold jumps
  rw [List.getElem?_zipWith]
  rw [List.getElem?_eq_getElem (by omega), List.getElem?_eq_getElem (by simp; omega)]
  simp only [List.getElem_tail, Option.some.injEq, List.getD_eq_getElem?_getD]
  rw [List.getElem?_eq_getElem (by omega), List.getElem?_eq_getElem (by omega)]
  simp

theorem idxOf_first (b : List Bool) (j : ℕ) (hj : b[j]? = some true) (hf : ∀ i < j, b[i]? ≠ some true) : b.idxOf true = j := by
  induction b generalizing j with
  | nil => simp at hj
  | cons x xs ih =>
    cases j with
    | zero =>
      simp at hj; subst hj; simp
    | succ j =>
      have hx : x ≠ true := by have := hf 0 (by omega); simpa using this
      rw [List.idxOf_cons_ne _ hx, ih j (by simpa using hj) (fun i hi => by have := hf (i + 1) (by omega); simpa using this)]

/-- The ratio of `hi` to `lo + 10e-8` exceeds the threshold.  A ratio with vanishing denominator exceeds it if the numerator is positive (`inf`), and not
if it is zero or negative (`nan`, `-inf`). -/
def Jump (t lo hi : ℝ) : Prop := (lo + 10e-8 = 0 ∧ 0 < hi) ∨ (lo + 10e-8 ≠ 0 ∧ t < hi / (lo + 10e-8))

theorem ratio_jump (t lo hi : ℝ) : ratioExceeds t lo hi ↔ Jump t lo hi := by
  unfold ratioExceeds Jump
  split_ifs with h <;> simp [h]

/-- **C65**: when the variance reaches the threshold, the estimate is the number of eigenvalues after the first consecutive pair whose ratio exceeds
the threshold. -/
theorem C65_jump (w : List ℝ) (a : Option ℝ) (t : ℝ) (ht : t = a.getD (1 + 2 / w.length)) (hvar : t ≤ npVar w)
    (j : ℕ) (hj : j + 1 < w.length) (hjump : Jump t (w.getD j 0) (w.getD (j + 1) 0))
    (hfirst : ∀ i < j, ¬ Jump t (w.getD i 0) (w.getD (i + 1) 0)) :
    estimateNumSources w a = .ok ((w.drop (j + 1)).length : ℤ) := by
  have hw : w ≠ [] := by rintro rfl; simp at hj
  have hJ : (jumps w t)[j]? = some true := by
    rw [jumps_get w t j hj, ratio_jump]; exact hjump
  have hF : ∀ i < j, (jumps w t)[i]? ≠ some true := by
    intro i hi
    rw [Ne, jumps_get w t i (by omega), ratio_jump]
    exact hfirst i hi
  rw [estimate_eq w hw, ← ht, if_neg (not_lt.mpr hvar)]
  have hb : boolArgmax (jumps w t) = .ok j := by
    have hm : true ∈ jumps w t := List.mem_of_getElem? hJ
    unfold boolArgmax
    split
    · rename_i h0; rw [h0] at hm; simp at hm
    · rename_i x xs h0
      rw [if_pos (h0 ▸ hm), idxOf_first _ j hJ hF]
  rw [hb]
  change Except.ok _ = _
  congr 1
  simp
  omega

/-- Eigenvalues 1, 1, 9: the variance exceeds the default threshold, the first jump is between the second and the third. -/
example : (5 / 3 : ℝ) = (none : Option ℝ).getD (1 + 2 / ([1, 1, 9] : List ℝ).length) ∧ (5 / 3 : ℝ) ≤ npVar [1, 1, 9] ∧
    Jump (5 / 3 : ℝ) (([1, 1, 9] : List ℝ).getD 1 0) (([1, 1, 9] : List ℝ).getD (1 + 1) 0) ∧
    (∀ i < 1, ¬ Jump (5 / 3) (([1, 1, 9] : List ℝ).getD i 0) (([1, 1, 9] : List ℝ).getD (i + 1) 0)) := by
  refine ⟨by norm_num, by norm_num [npVar], by norm_num [Jump], fun i hi => ?_⟩
  obtain rfl : i = 0 := by omega
  norm_num [Jump]

/-- **C65**: if no ratio exceeds the threshold although the variance does, `np.argmax` falls back to index 0 and all but one channel count as sources. -/
theorem C65_no_jump (w : List ℝ) (a : Option ℝ) (t : ℝ) (ht : t = a.getD (1 + 2 / w.length)) (hvar : t ≤ npVar w) (hlen : 2 ≤ w.length)
    (hno : ∀ i, i + 1 < w.length → ¬ Jump t (w.getD i 0) (w.getD (i + 1) 0)) :
    estimateNumSources w a = .ok ((w.length : ℤ) - 1) := by
  have hw : w ≠ [] := by rintro rfl; simp at hlen
  have hF : true ∉ jumps w t := by
    intro hm
    obtain ⟨i, hi⟩ := List.mem_iff_getElem?.mp hm
    have hil : i + 1 < w.length := by
      have := (List.getElem?_eq_some_iff.mp hi).1
      rw [jumps_length] at this; omega
    rw [jumps_get w t i hil, ratio_jump] at hi
    exact hno i hil hi
  rw [estimate_eq w hw, ← ht, if_neg (not_lt.mpr hvar)]
  have hb : boolArgmax (jumps w t) = .ok 0 := by
    unfold boolArgmax
    split
    · rename_i h0
      have := jumps_length w t
      rw [h0] at this; simp at this; omega
    · rename_i x xs h0
      rw [if_neg (h0 ▸ hF)]
  rw [hb]
  change Except.ok _ = _
  congr 1
  simp

/-- Eigenvalues 10, 15: large variance, ratio 1.5 below the default threshold 2. -/
example : (2 : ℝ) = (none : Option ℝ).getD (1 + 2 / ([10, 15] : List ℝ).length) ∧ (2 : ℝ) ≤ npVar [10, 15] ∧
    ∀ i, i + 1 < ([10, 15] : List ℝ).length → ¬ Jump 2 (([10, 15] : List ℝ).getD i 0) (([10, 15] : List ℝ).getD (i + 1) 0) := by
  refine ⟨by norm_num, by norm_num [npVar], fun i hi => ?_⟩
  obtain rfl : i = 0 := by simp at hi; omega
  norm_num [Jump]

/-- **C64**: the default split point (`estimate_num_sources`) is always accepted. -/
theorem C64_default (eigh) {L : ℕ} (S : Matrix (Fin L) (Fin L) ℝ) (hL : 0 < L) : ∃ r, separateCov eigh S none = .ok r := by
  obtain ⟨n, hn, hle⟩ := C65_range (List.ofFn (eigh L S).1) none (by
    rw [List.length_ofFn]
    rcases Nat.lt_or_ge 1 L with h | h
    · exact Or.inl h
    · exact Or.inr ⟨by omega, by simp⟩)
  rw [List.length_ofFn] at hle
  obtain ⟨r, hr⟩ := (C64_accepts eigh S n).1.mpr (by omega)
  refine ⟨r, ?_⟩
  rw [separateCov_some] at hr
  unfold separateCov
  rw [dif_pos rfl]
  change (estimateNumSources (List.ofFn (eigh L S).1) none).bind _ = _
  rw [hn]
  exact hr

/-- `C64_default` for two channels. -/
example (eigh) : ∃ r, separateCov eigh !![(2 : ℝ), 1; 1, 3] none = .ok r := C64_default eigh _ (by norm_num)

end Verif.Props
