import Verif.Props.AmbiDecoders
import Verif.Props.ModeMatching

/-! What the energy preserving decoder optimises: C162. -/

namespace Verif.Props
open Decoder Sph Matrix Real

/-- Sum of the squares of all entries. -/
def frob {m n : ℕ} (A : Matrix (Fin m) (Fin n) ℝ) : ℝ := ∑ i, ∑ j, A i j ^ 2

theorem frob_trace {m n : ℕ} (A : Matrix (Fin m) (Fin n) ℝ) : frob A = trace (Aᵀ * A) := by
  unfold frob trace
  rw [Finset.sum_comm]
  refine Finset.sum_congr rfl fun j _ => ?_
  rw [diag_apply, mul_apply]
  exact Finset.sum_congr rfl fun i _ => by rw [transpose_apply, sq]

theorem frob_transpose {m n : ℕ} (A : Matrix (Fin m) (Fin n) ℝ) : frob Aᵀ = frob A := by
  unfold frob
  rw [Finset.sum_comm]
  rfl

theorem frob_orth {m n : ℕ} (U : Matrix (Fin m) (Fin m) ℝ) (V : Matrix (Fin n) (Fin n) ℝ) (hU : Uᵀ * U = 1) (hV : Vᵀ * V = 1) (A : Matrix (Fin m) (Fin n) ℝ) :
    frob (U * A * V) = frob A := by
  rw [frob_trace, frob_trace, transpose_mul, transpose_mul]
  have hV' : V * Vᵀ = 1 := mul_eq_one_comm.1 hV
  calc trace (Vᵀ * (Aᵀ * Uᵀ) * (U * A * V)) = trace (Vᵀ * (Aᵀ * (Uᵀ * U) * A * V)) := by simp only [Matrix.mul_assoc]
    _ = trace (Aᵀ * A) := by rw [hU, Matrix.mul_one, trace_mul_comm, Matrix.mul_assoc, hV', Matrix.mul_one]

/-- The orthogonal factor is the closest matrix with orthogonal columns of equal length; the only one if the columns are linearly independent. -/
theorem polar_closest {m n : ℕ} (hmn : n ≤ m) (A : Matrix (Fin m) (Fin n) ℝ) (U : Matrix (Fin m) (Fin m) ℝ) (V : Matrix (Fin n) (Fin n) ℝ) (h : IsSvd A U V)
    (E : Matrix (Fin m) (Fin n) ℝ) (g s : ℝ) (hg : 0 ≤ g) (hE : Eᵀ * E = g • (1 : Matrix (Fin n) (Fin n) ℝ)) (hs : 0 < s) :
    frob (√g • (U * npEye m n * V) - s • A) ≤ frob (E - s • A) ∧
      (LinearIndependent ℝ A.col → frob (E - s • A) = frob (√g • (U * npEye m n * V) - s • A) → E = √g • (U * npEye m n * V)) := by
  obtain ⟨σ, hσ, hA, hnn⟩ := h.diag
  have hU' : U * Uᵀ = 1 := mul_eq_one_comm.1 h.u
  have hV' : V * Vᵀ = 1 := mul_eq_one_comm.1 h.vh
  obtain ⟨W, hW⟩ : ∃ W, W = Uᵀ * E * Vᵀ := ⟨_, rfl⟩
  have hEW : E = U * W * V := by
    rw [hW]
    calc E = (U * Uᵀ) * E * (Vᵀ * V) := by rw [hU', h.vh, Matrix.one_mul, Matrix.mul_one]
      _ = _ := by simp only [Matrix.mul_assoc]
  have hWW : Wᵀ * W = g • (1 : Matrix (Fin n) (Fin n) ℝ) := by
    rw [hW, transpose_mul, transpose_mul, transpose_transpose, transpose_transpose]
    calc V * (Eᵀ * U) * (Uᵀ * E * Vᵀ) = V * (Eᵀ * (U * Uᵀ) * E) * Vᵀ := by simp only [Matrix.mul_assoc]
      _ = _ := by rw [hU', Matrix.mul_one, hE, Matrix.mul_smul, Matrix.mul_one, Matrix.smul_mul, hV']
  have hcol : ∀ j, ∑ i, W i j ^ 2 = g := by
    intro j
    have := congrFun (congrFun hWW j) j
    rw [mul_apply, Matrix.smul_apply, one_apply_eq, smul_eq_mul, mul_one] at this
    rw [← this]
    exact Finset.sum_congr rfl fun i _ => by rw [transpose_apply, sq]
  have hle : ∀ i j, W i j ≤ √g := by
    intro i j
    refine Real.le_sqrt_of_sq_le ?_
    rw [← hcol j]
    exact Finset.single_le_sum (f := fun i => W i j ^ 2) (fun i _ => sq_nonneg _) (Finset.mem_univ i)
  have f1 : frob (E - s • A) = frob (W - s • σ) := by
    rw [← frob_orth U V h.u h.vh (W - s • σ), hEW, hA, Matrix.mul_sub, Matrix.sub_mul, Matrix.mul_smul, Matrix.smul_mul]
  have f2 : frob (√g • (U * npEye m n * V) - s • A) = frob (√g • npEye m n - s • σ) := by
    rw [← frob_orth U V h.u h.vh (√g • npEye m n - s • σ), hA, Matrix.mul_sub, Matrix.sub_mul, Matrix.mul_smul, Matrix.smul_mul, Matrix.mul_smul, Matrix.smul_mul]
  have hentry : ∀ i (j : Fin n), σ i j = if i = Fin.castLE hmn j then σ (Fin.castLE hmn j) j else 0 := by
    intro i j
    split_ifs with hij
    · rw [hij]
    · exact hσ i j fun h => hij (Fin.ext h)
  have hcs : ∀ (X : Matrix (Fin m) (Fin n) ℝ) (j : Fin n), ∑ i, X i j ^ 2 = g →
      ∑ i, (X - s • σ) i j ^ 2 = g - 2 * s * σ (Fin.castLE hmn j) j * X (Fin.castLE hmn j) j + s ^ 2 * σ (Fin.castLE hmn j) j ^ 2 := by
    intro X j hX
    have e : ∀ i, (X - s • σ) i j ^ 2 = X i j ^ 2 + if i = Fin.castLE hmn j then - 2 * s * σ (Fin.castLE hmn j) j * X i j + s ^ 2 * σ (Fin.castLE hmn j) j ^ 2 else 0 := by
      intro i
      rw [Matrix.sub_apply, Matrix.smul_apply, smul_eq_mul, hentry i j]
      split_ifs <;> ring
    rw [Finset.sum_congr rfl fun i _ => e i, Finset.sum_add_distrib, hX, Finset.sum_ite_eq' Finset.univ, if_pos (Finset.mem_univ _)]
    ring
  have heye : ∀ j, ∑ i, (√g • npEye m n) i j ^ 2 = g := by
    intro j
    have e : ∀ i, (√g • npEye m n) i j ^ 2 = if i = Fin.castLE hmn j then g else 0 := by
      intro i
      rw [Matrix.smul_apply, smul_eq_mul]
      unfold npEye
      by_cases hij : i = Fin.castLE hmn j
      · rw [if_pos hij, if_pos (show (i : ℕ) = j from congrArg Fin.val hij), mul_one, Real.sq_sqrt hg]
      · rw [if_neg hij, if_neg fun h : (i : ℕ) = j => hij (Fin.ext h)]; ring
    rw [Finset.sum_congr rfl fun i _ => e i, Finset.sum_ite_eq' Finset.univ, if_pos (Finset.mem_univ _)]
  have hd : ∀ j, (√g • npEye m n) (Fin.castLE hmn j) j = √g := by
    intro j
    rw [Matrix.smul_apply, smul_eq_mul]
    unfold npEye
    rw [if_pos (show (Fin.castLE hmn j : ℕ) = j from rfl), mul_one]
  have hdiff : frob (E - s • A) - frob (√g • (U * npEye m n * V) - s • A) = ∑ j, 2 * s * σ (Fin.castLE hmn j) j * (√g - W (Fin.castLE hmn j) j) := by
    rw [f1, f2]
    unfold frob
    rw [Finset.sum_comm, Finset.sum_comm (f := fun i j => (√g • npEye m n - s • σ) i j ^ 2), ← Finset.sum_sub_distrib]
    refine Finset.sum_congr rfl fun j _ => ?_
    rw [hcs W j (hcol j), hcs (√g • npEye m n) j (heye j), hd]
    ring
  have hterm : ∀ j, 0 ≤ 2 * s * σ (Fin.castLE hmn j) j * (√g - W (Fin.castLE hmn j) j) := fun j =>
    mul_nonneg (mul_nonneg (by positivity) (hnn _ _)) (sub_nonneg.2 (hle _ _))
  refine ⟨?_, fun hli heq => ?_⟩
  · have : 0 ≤ ∑ j, 2 * s * σ (Fin.castLE hmn j) j * (√g - W (Fin.castLE hmn j) j) := Finset.sum_nonneg fun j _ => hterm j
    linarith
  · rw [heq, sub_self] at hdiff
    have hz := (Finset.sum_eq_zero_iff_of_nonneg fun j _ => hterm j).1 hdiff.symm
    have hσpos : ∀ j, σ (Fin.castLE hmn j) j ≠ 0 := by
      intro j hj
      have h0 : A *ᵥ (Vᵀ.col j) = 0 := by
        rw [hA, ← mulVec_mulVec]
        have : V *ᵥ (Vᵀ.col j) = Pi.single j 1 := by
          funext i
          have := congrFun (congrFun hV' i) j
          rw [mul_apply, one_apply] at this
          rw [Pi.single_apply]
          exact this
        rw [this, ← mulVec_mulVec]
        have h2 : σ *ᵥ (Pi.single j 1) = 0 := by
          funext i
          rw [mulVec_single_one]
          change σ i j = 0
          rw [hentry i j, hj, ite_self]
        rw [h2, mulVec_zero]
      have hinj := mulVec_injective_iff.2 hli
      have h1 : Vᵀ.col j = 0 := hinj (h0.trans (mulVec_zero _).symm)
      have := congrFun (congrFun hV' j) j
      rw [mul_apply, one_apply_eq] at this
      have hzero : ∑ k, V j k * Vᵀ k j = 0 := Finset.sum_eq_zero fun k _ => by
        have : Vᵀ k j = 0 := congrFun h1 k
        rw [this, mul_zero]
      rw [hzero] at this
      exact zero_ne_one this
    have hWd : ∀ j, W (Fin.castLE hmn j) j = √g := by
      intro j
      have := hz j (Finset.mem_univ _)
      rcases mul_eq_zero.1 this with h1 | h1
      · exact absurd h1 (mul_ne_zero (by positivity) (hσpos j))
      · linarith
    have hWe : W = √g • npEye m n := by
      funext i j
      rw [Matrix.smul_apply, smul_eq_mul]
      unfold npEye
      by_cases hij : i = Fin.castLE hmn j
      · rw [hij, hWd, if_pos (show (Fin.castLE hmn j : ℕ) = j from rfl), mul_one]
      · rw [if_neg fun h : (i : ℕ) = j => hij (Fin.ext h), mul_zero]
        have h1 := hcol j
        rw [← Finset.add_sum_erase _ _ (Finset.mem_univ (Fin.castLE hmn j)), hWd, Real.sq_sqrt hg] at h1
        have h2 : ∑ x ∈ Finset.univ.erase (Fin.castLE hmn j), W x j ^ 2 = 0 := by linarith
        rw [Finset.sum_eq_zero_iff_of_nonneg fun q _ => sq_nonneg _] at h2
        exact pow_eq_zero_iff two_ne_zero |>.1 (h2 i (Finset.mem_erase.2 ⟨hij, Finset.mem_univ _⟩))
    rw [hEW, hWe, Matrix.mul_smul, Matrix.smul_mul]

theorem IsSvd.trans {m n : ℕ} {A : Matrix (Fin m) (Fin n) ℝ} {U : Matrix (Fin m) (Fin m) ℝ} {V : Matrix (Fin n) (Fin n) ℝ} (h : IsSvd A U V) : IsSvd Aᵀ Vᵀ Uᵀ := by
  obtain ⟨σ, hσ, hA, hnn⟩ := h.diag
  refine ⟨?_, ?_, σᵀ, fun i j hij => hσ j i (Ne.symm hij), ?_, fun i j => hnn j i⟩
  · rw [transpose_transpose]; exact mul_eq_one_comm.1 h.vh
  · rw [transpose_transpose]; exact mul_eq_one_comm.1 h.u
  · rw [hA, transpose_mul, transpose_mul, Matrix.mul_assoc]

theorem npEye_transpose (m n : ℕ) : (npEye m n)ᵀ = npEye n m := by
  funext i j
  rw [transpose_apply]
  unfold npEye
  simp only [eq_comm]

/-- A matrix that multiplies all energies by `g` has orthogonal columns. -/
theorem gram_of_energy {m n : ℕ} (E : Matrix (Fin m) (Fin n) ℝ) (g : ℝ) (h : ∀ f : Fin n → ℝ, ∑ l, (E *ᵥ f) l ^ 2 = g * ∑ q, f q ^ 2) :
    Eᵀ * E = g • (1 : Matrix (Fin n) (Fin n) ℝ) := by
  have hd : ∀ f : Fin n → ℝ, f ⬝ᵥ ((Eᵀ * E) *ᵥ f) = g * (f ⬝ᵥ f) := by
    intro f
    rw [← mulVec_mulVec, dotProduct_mulVec, vecMul_transpose]
    have := h f
    unfold dotProduct
    simpa only [sq] using this
  have hsym : ∀ i j, (Eᵀ * E) i j = (Eᵀ * E) j i := by
    intro i j
    have : (Eᵀ * E)ᵀ = Eᵀ * E := by rw [transpose_mul, transpose_transpose]
    rw [← transpose_apply (Eᵀ * E) j i, this]
  have hs : ∀ i j, (Pi.single i 1 : Fin n → ℝ) ⬝ᵥ ((Eᵀ * E) *ᵥ Pi.single j 1) = (Eᵀ * E) i j := by
    intro i j
    rw [mulVec_single_one, single_one_dotProduct]
    rfl
  funext i j
  rw [Matrix.smul_apply, smul_eq_mul, one_apply]
  have hii : ∀ i, (Eᵀ * E) i i = g := by
    intro i
    rw [← hs, hd, single_one_dotProduct, Pi.single_eq_same, mul_one]
  split_ifs with hij
  · rw [← hij, hii, mul_one]
  · have h1 := hd (Pi.single i 1 + Pi.single j 1)
    rw [mulVec_add, add_dotProduct, dotProduct_add, dotProduct_add, hs, hs, hs, hs, hii, hii, hsym j i, add_dotProduct, dotProduct_add, dotProduct_add,
      single_one_dotProduct, single_one_dotProduct, single_one_dotProduct, single_one_dotProduct, Pi.single_eq_same, Pi.single_eq_same,
      Pi.single_eq_of_ne hij, Pi.single_eq_of_ne (Ne.symm hij)] at h1
    linarith

/-- `epad` and `sad` for unit impulses in the channels: their decoding matrices. -/
theorem decoder_matrices {L : ℕ} (hL : 0 < L) (lstsq : Mat3 → Mat3)
    (svd : {m n : ℕ} → Matrix (Fin m) (Fin n) ℝ → Matrix (Fin m) (Fin m) ℝ × Matrix (Fin n) (Fin n) ℝ) (h : Hull L) (N : ℕ) :
    epad lstsq svd (1 : Matrix (Fin ((N + 1) ^ 2)) (Fin ((N + 1) ^ 2)) ℝ) h (some N) =
      .ok (√(4 * π / ((N : ℝ) + 1) ^ 2) • ((svd (shAt N h.points)).1 * npEye L ((N + 1) ^ 2) * (svd (shAt N h.points)).2)) ∧
    sad lstsq (1 : Matrix (Fin ((N + 1) ^ 2)) (Fin ((N + 1) ^ 2)) ℝ) h (some N) =
      .ok ((√(4 * π / ((N : ℝ) + 1) ^ 2) * √(4 * π / L)) • shAt N h.points) := by
  have h1 : (1 : Matrix (Fin ((N + 1) ^ 2)) (Fin ((N + 1) ^ 2)) ℝ).submatrix (Fin.castLE le_rfl) id = 1 := rfl
  have hL' : (L : ℝ) ≠ 0 := by positivity
  constructor
  · rw [epad_eq lstsq svd _ h (some N) N rfl, applyTruncated_ok _ _ le_rfl, h1, Matrix.mul_one, smul_smul, ← Real.sqrt_mul (by positivity)]
    have e : (L : ℝ) / ((N : ℝ) + 1) ^ 2 * (4 * π / L) = 4 * π / ((N : ℝ) + 1) ^ 2 := by field_simp
    rw [e]
  · rw [sad_eq lstsq _ h (some N) N rfl, applyTruncated_ok _ _ le_rfl, h1, Matrix.mul_one, smul_smul, mul_comm]

/-- **C162**: of all decoders that multiply the energy of every sound field by `4π/(N+1)²`, `epad` is the one closest to sampling decoding (`sad`), in the sum of the squared
differences over all loudspeakers and channels; with linearly independent columns of the SH matrix (as many suitably placed loudspeakers) no other is as close. -/
theorem C162_epad_closest {L : ℕ} (lstsq : Mat3 → Mat3) (svd : {m n : ℕ} → Matrix (Fin m) (Fin n) ℝ → Matrix (Fin m) (Fin m) ℝ × Matrix (Fin n) (Fin n) ℝ)
    (hsvd : ∀ {m n : ℕ} (A : Matrix (Fin m) (Fin n) ℝ), IsSvd A (svd A).1 (svd A).2) (h : Hull L) (N : ℕ) (hL : (N + 1) ^ 2 ≤ L) :
    ∃ D T, epad lstsq svd (1 : Matrix (Fin ((N + 1) ^ 2)) (Fin ((N + 1) ^ 2)) ℝ) h (some N) = .ok D ∧
      sad lstsq (1 : Matrix (Fin ((N + 1) ^ 2)) (Fin ((N + 1) ^ 2)) ℝ) h (some N) = .ok T ∧
      (∀ f : Fin ((N + 1) ^ 2) → ℝ, ∑ l, (D *ᵥ f) l ^ 2 = 4 * π / ((N : ℝ) + 1) ^ 2 * ∑ q, f q ^ 2) ∧
      ∀ E : Matrix (Fin L) (Fin ((N + 1) ^ 2)) ℝ, (∀ f : Fin ((N + 1) ^ 2) → ℝ, ∑ l, (E *ᵥ f) l ^ 2 = 4 * π / ((N : ℝ) + 1) ^ 2 * ∑ q, f q ^ 2) →
        ∑ l, ∑ q, (D l q - T l q) ^ 2 ≤ ∑ l, ∑ q, (E l q - T l q) ^ 2 ∧
        (LinearIndependent ℝ (shAt N h.points).col → ∑ l, ∑ q, (E l q - T l q) ^ 2 = ∑ l, ∑ q, (D l q - T l q) ^ 2 → E = D) := by
  have hpos : 0 < L := lt_of_lt_of_le (by positivity) hL
  have hpos' : (0 : ℝ) < L := by positivity
  obtain ⟨h1, h2⟩ := decoder_matrices hpos lstsq svd h N
  refine ⟨_, _, h1, h2, fun f => ?_, fun E hE => ?_⟩
  · obtain ⟨out, h3, h4⟩ := C42_energy lstsq svd hsvd (Matrix.of fun q (_ : Fin 1) => f q) h (some N) N rfl hL le_rfl
    rw [epad_eq lstsq svd _ h (some N) N rfl, applyTruncated_ok _ _ le_rfl] at h3
    rw [epad_eq lstsq svd _ h (some N) N rfl, applyTruncated_ok _ _ le_rfl] at h1
    have h5 := Except.ok.inj h1
    have e1 : (1 : Matrix (Fin ((N + 1) ^ 2)) (Fin ((N + 1) ^ 2)) ℝ).submatrix (Fin.castLE le_rfl) id = 1 := rfl
    rw [e1, Matrix.mul_one] at h5
    have h6 := Except.ok.inj h3
    rw [h5] at h6
    have := h4 0
    rw [← h6] at this
    exact this
  · have := polar_closest hL (shAt N h.points) _ _ (hsvd (shAt N h.points)) E (4 * π / ((N : ℝ) + 1) ^ 2) (√(4 * π / ((N : ℝ) + 1) ^ 2) * √(4 * π / L)) (by positivity)
      (gram_of_energy E _ hE) (by have := pi_pos; positivity)
    exact this

/-- **C162**: with at most `(N+1)²` loudspeakers `epad` is the decoder closest to `sad` among those that turn uncorrelated channels of equal energy into uncorrelated loudspeaker
signals of equal energy; the only one if the steering vectors of the loudspeakers are linearly independent, as those of up to `N + 1` loudspeakers in different directions are. -/
theorem C162_epad_few {L : ℕ} (hpos : 0 < L) (lstsq : Mat3 → Mat3) (svd : {m n : ℕ} → Matrix (Fin m) (Fin n) ℝ → Matrix (Fin m) (Fin m) ℝ × Matrix (Fin n) (Fin n) ℝ)
    (hsvd : ∀ {m n : ℕ} (A : Matrix (Fin m) (Fin n) ℝ), IsSvd A (svd A).1 (svd A).2) (h : Hull L) (N : ℕ) (hL : L ≤ (N + 1) ^ 2) :
    ∃ D T, epad lstsq svd (1 : Matrix (Fin ((N + 1) ^ 2)) (Fin ((N + 1) ^ 2)) ℝ) h (some N) = .ok D ∧
      sad lstsq (1 : Matrix (Fin ((N + 1) ^ 2)) (Fin ((N + 1) ^ 2)) ℝ) h (some N) = .ok T ∧
      (∀ l l', ∑ q, D l q * D l' q = if l = l' then 4 * π / ((N : ℝ) + 1) ^ 2 else 0) ∧
      ∀ E : Matrix (Fin L) (Fin ((N + 1) ^ 2)) ℝ, (∀ l l', ∑ q, E l q * E l' q = if l = l' then 4 * π / ((N : ℝ) + 1) ^ 2 else 0) →
        ∑ l, ∑ q, (D l q - T l q) ^ 2 ≤ ∑ l, ∑ q, (E l q - T l q) ^ 2 ∧
        ((L ≤ N + 1 ∧ Function.Injective fun l => dirVec (dirOf (h.points l)).1 (dirOf (h.points l)).2) ∨
          LinearIndependent ℝ (fun l => shVec N (dirOf (h.points l)).1 (dirOf (h.points l)).2) →
          ∑ l, ∑ q, (E l q - T l q) ^ 2 = ∑ l, ∑ q, (D l q - T l q) ^ 2 → E = D) := by
  have hpos' : (0 : ℝ) < L := by positivity
  obtain ⟨h1, h2⟩ := decoder_matrices hpos lstsq svd h N
  have hs := hsvd (shAt N h.points)
  have hg : (0 : ℝ) ≤ 4 * π / ((N : ℝ) + 1) ^ 2 := by positivity
  refine ⟨_, _, h1, h2, fun l l' => ?_, fun E hE => ?_⟩
  · generalize (svd (shAt N h.points)).1 = U at *
    generalize (svd (shAt N h.points)).2 = V at *
    have hV' : V * Vᵀ = 1 := mul_eq_one_comm.1 hs.vh
    have hU' : U * Uᵀ = 1 := mul_eq_one_comm.1 hs.u
    have e2 : npEye L ((N + 1) ^ 2) * (npEye L ((N + 1) ^ 2))ᵀ = 1 := by
      have := npEye_gram hL
      rw [npEye_transpose] at this
      rw [npEye_transpose]; exact this
    have e : (U * npEye L ((N + 1) ^ 2) * V) * (U * npEye L ((N + 1) ^ 2) * V)ᵀ = 1 := by
      rw [transpose_mul, transpose_mul]
      calc U * npEye L ((N + 1) ^ 2) * V * (Vᵀ * ((npEye L ((N + 1) ^ 2))ᵀ * Uᵀ)) = U * (npEye L ((N + 1) ^ 2) * (V * Vᵀ) * (npEye L ((N + 1) ^ 2))ᵀ) * Uᵀ := by
            simp only [Matrix.mul_assoc]
        _ = 1 := by rw [hV', Matrix.mul_one, e2, Matrix.mul_one, hU']
    have e3 := congrFun (congrFun e l) l'
    rw [mul_apply, one_apply] at e3
    simp only [Matrix.smul_apply, smul_eq_mul]
    generalize U * npEye L ((N + 1) ^ 2) * V = X at *
    have : ∀ q, √(4 * π / ((N : ℝ) + 1) ^ 2) * X l q * (√(4 * π / ((N : ℝ) + 1) ^ 2) * X l' q) = 4 * π / ((N : ℝ) + 1) ^ 2 * (X l q * Xᵀ q l') := by
      intro q
      rw [transpose_apply]
      nth_rewrite 3 [← Real.mul_self_sqrt hg]
      ring
    rw [Finset.sum_congr rfl fun q _ => this q, ← Finset.mul_sum, e3]
    split_ifs <;> ring
  · have hEE : Eᵀᵀ * Eᵀ = (4 * π / ((N : ℝ) + 1) ^ 2) • (1 : Matrix (Fin L) (Fin L) ℝ) := by
      funext l l'
      rw [transpose_transpose, mul_apply, Matrix.smul_apply, smul_eq_mul, one_apply]
      refine Eq.trans (hE l l') ?_
      split_ifs <;> ring
    have key := polar_closest hL (shAt N h.points)ᵀ _ _ hs.trans Eᵀ (4 * π / ((N : ℝ) + 1) ^ 2) (√(4 * π / ((N : ℝ) + 1) ^ 2) * √(4 * π / L)) hg hEE
      (by have := pi_pos; positivity)
    have e1 : ∀ X : Matrix (Fin L) (Fin ((N + 1) ^ 2)) ℝ, frob (Xᵀ - (√(4 * π / ((N : ℝ) + 1) ^ 2) * √(4 * π / L)) • (shAt N h.points)ᵀ) =
        frob (X - (√(4 * π / ((N : ℝ) + 1) ^ 2) * √(4 * π / L)) • shAt N h.points) := by
      intro X
      rw [← transpose_smul, ← transpose_sub, frob_transpose]
    have e2 : √(4 * π / ((N : ℝ) + 1) ^ 2) • ((svd (shAt N h.points)).2ᵀ * npEye ((N + 1) ^ 2) L * (svd (shAt N h.points)).1ᵀ) =
        (√(4 * π / ((N : ℝ) + 1) ^ 2) • ((svd (shAt N h.points)).1 * npEye L ((N + 1) ^ 2) * (svd (shAt N h.points)).2))ᵀ := by
      rw [transpose_smul, transpose_mul, transpose_mul, npEye_transpose, Matrix.mul_assoc]
    rw [e2, e1, e1] at key
    refine ⟨key.1, fun hli heq => ?_⟩
    have hli' : LinearIndependent ℝ (shAt N h.points)ᵀ.col := by
      rcases hli with ⟨a, b⟩ | a
      · exact steer_linInd N L a _ _ (fun l => dirOf_zenith _) b
      · exact a
    exact transpose_injective (key.2 hli' heq)

/-- `C162_epad_closest` on the octahedron at order 1: `epad` is at least as close to `sad` as its negative. -/
example : ∃ (svd : {m n : ℕ} → Matrix (Fin m) (Fin n) ℝ → Matrix (Fin m) (Fin m) ℝ × Matrix (Fin n) (Fin n) ℝ) (D T : Matrix (Fin 6) (Fin ((1 + 1) ^ 2)) ℝ),
    epad id svd (1 : Matrix (Fin ((1 + 1) ^ 2)) (Fin ((1 + 1) ^ 2)) ℝ) Oct.hull (some 1) = .ok D ∧ sad id (1 : Matrix (Fin ((1 + 1) ^ 2)) (Fin ((1 + 1) ^ 2)) ℝ) Oct.hull (some 1) = .ok T ∧ ∑ l, ∑ q, (D l q - T l q) ^ 2 ≤ ∑ l, ∑ q, (-D l q - T l q) ^ 2 := by
  choose U V h using fun (m n : ℕ) (A : Matrix (Fin m) (Fin n) ℝ) => exists_svd A
  obtain ⟨D, T, h1, h2, h3, h4⟩ := C162_epad_closest id (fun {m n} A => (U m n A, V m n A)) (fun A => h _ _ A) Oct.hull 1 (by norm_num)
  refine ⟨_, D, T, h1, h2, (h4 (-D) fun f => ?_).1⟩
  rw [neg_mulVec]
  simpa only [Pi.neg_apply, neg_sq] using h3 f

/-- `C162_epad_few` on the octahedron at order 2. -/
example : ∃ (svd : {m n : ℕ} → Matrix (Fin m) (Fin n) ℝ → Matrix (Fin m) (Fin m) ℝ × Matrix (Fin n) (Fin n) ℝ) (D T : Matrix (Fin 6) (Fin ((2 + 1) ^ 2)) ℝ),
    epad id svd (1 : Matrix (Fin ((2 + 1) ^ 2)) (Fin ((2 + 1) ^ 2)) ℝ) Oct.hull (some 2) = .ok D ∧ sad id (1 : Matrix (Fin ((2 + 1) ^ 2)) (Fin ((2 + 1) ^ 2)) ℝ) Oct.hull (some 2) = .ok T ∧ ∑ l, ∑ q, (D l q - T l q) ^ 2 ≤ ∑ l, ∑ q, (-D l q - T l q) ^ 2 := by
  choose U V h using fun (m n : ℕ) (A : Matrix (Fin m) (Fin n) ℝ) => exists_svd A
  obtain ⟨D, T, h1, h2, h3, h4⟩ := C162_epad_few (by norm_num) id (fun {m n} A => (U m n A, V m n A)) (fun A => h _ _ A) Oct.hull 2 (by norm_num)
  refine ⟨_, D, T, h1, h2, (h4 (-D) fun l l' => ?_).1⟩
  simpa only [Matrix.neg_apply, neg_mul_neg] using h3 l l'

end Verif.Props
