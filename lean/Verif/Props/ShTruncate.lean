import Verif.Model.ShGiven
import Verif.Props.ShComplex

/-!
C134: the order used by `inverse_sht` and its errors.
-/

namespace Verif.Props
open Real Verif.Sph Verif.Grids Verif.Utils

theorem exists_order {K : ℕ} (hK : 0 < K) : ∃ N : ℕ, (N + 1) ^ 2 ≤ K ∧ K < (N + 2) ^ 2 := by
  refine ⟨K.sqrt - 1, ?_, ?_⟩
  · have h1 : 1 ≤ K.sqrt := Nat.le_sqrt'.2 (by omega)
    rw [Nat.sub_add_cancel h1]
    exact Nat.sqrt_le' K
  · have h1 : 1 ≤ K.sqrt := Nat.le_sqrt'.2 (by omega)
    have h2 := Nat.lt_succ_sqrt' K
    have h3 : K.sqrt - 1 + 2 = K.sqrt + 1 := by omega
    rw [h3]
    exact h2

/-- C134, real harmonics: with `N_sph = N` the first `(N+1)²` channels are evaluated and the rest are ignored; fewer channels
raise `ValueError`; without `N_sph` the largest full order contained in the channels is used. -/
theorem C134_real {K S Q : ℕ} (F : Matrix (Fin K) (Fin S) ℝ) (azi zen : Fin Q → ℝ) :
    (∀ (N : ℕ) (h : (N + 1) ^ 2 ≤ K), ∃ f, inverseSht F azi zen (some N) = .ok f ∧
      ∀ q s, f q s = ∑ i : Fin ((N + 1) ^ 2), realSH (acnOrder i) (acnDegree i) (azi q) (zen q) * F (Fin.castLE h i) s) ∧
    (∀ N : ℕ, K < (N + 1) ^ 2 → inverseSht F azi zen (some N) = .error .valueError) ∧
    (∀ N : ℕ, (N + 1) ^ 2 ≤ K → K < (N + 2) ^ 2 → inverseSht F azi zen none = inverseSht F azi zen (some N)) := by
  have hsome : ∀ (N : ℕ) (h : (N + 1) ^ 2 ≤ K), inverseSht F azi zen (some N)
      = .ok (shMat N azi zen * F.submatrix (Fin.castLE h) id) := by
    intro N h
    unfold inverseSht
    rw [if_neg (by simp)]
    exact dif_pos h
  refine ⟨fun N h => ⟨_, hsome N h, fun q s => rfl⟩, fun N h => ?_, fun N h1 h2 => ?_⟩
  · unfold inverseSht
    rw [if_neg (by simp)]
    exact dif_neg (not_le.2 h)
  · rw [hsome N h1, inverseSht_none F azi zen N (((C11_order_iff K N).1).2 ⟨h1, h2⟩) h1]

/-- C134, complex harmonics. -/
theorem C134_complex {K S Q : ℕ} (F : Matrix (Fin K) (Fin S) ℂ) (azi zen : Fin Q → ℝ) :
    (∀ (N : ℕ) (h : (N + 1) ^ 2 ≤ K), ∃ f, inverseShtC F azi zen (some N) = .ok f ∧
      ∀ q s, f q s = ∑ i : Fin ((N + 1) ^ 2), sphHarm (acnDegree i) (acnOrder i) (azi q) (zen q) * F (Fin.castLE h i) s) ∧
    (∀ N : ℕ, K < (N + 1) ^ 2 → inverseShtC F azi zen (some N) = .error .valueError) ∧
    (∀ N : ℕ, (N + 1) ^ 2 ≤ K → K < (N + 2) ^ 2 → inverseShtC F azi zen none = inverseShtC F azi zen (some N)) := by
  have hsome : ∀ (N : ℕ) (h : (N + 1) ^ 2 ≤ K), inverseShtC F azi zen (some N)
      = .ok (shMatC N azi zen * F.submatrix (Fin.castLE h) id) := by
    intro N h
    unfold inverseShtC
    rw [if_neg (by simp)]
    exact dif_pos h
  refine ⟨fun N h => ⟨_, hsome N h, fun q s => rfl⟩, fun N h => ?_, fun N h1 h2 => ?_⟩
  · unfold inverseShtC
    rw [if_neg (by simp)]
    exact dif_neg (not_le.2 h)
  · rw [hsome N h1]
    have hK : K ≠ 0 := by have := sq_pos' N; omega
    have hM : (shOrder K).toNat = N := by rw [((C11_order_iff K N).1).2 ⟨h1, h2⟩]; simp
    unfold inverseShtC
    rw [if_neg (fun h => hK h.2)]
    generalize (shOrder K).toNat = M at hM
    subst hM
    exact dif_pos h1

/-- C134, explicit matrix: `inverse_sht(F, azi, zen, sh_type, N_sph, Y_nm)` is `Y_nm` applied to the leading channels. It
succeeds exactly when `Y_nm` has as many columns as channels are kept, which is `(N+1)²` or all of them when there are fewer. -/
theorem C134_given {R : Type} [CommRing R] {Q C K S : ℕ} (Y : Matrix (Fin Q) (Fin C) R) (F : Matrix (Fin K) (Fin S) R) :
    (∀ (N : ℕ) (h : C ≤ K), (C = (N + 1) ^ 2 ∨ C = K ∧ K < (N + 1) ^ 2) →
      ∃ f, inverseShtY Y F (some N) = .ok f ∧ ∀ q s, f q s = ∑ i : Fin C, Y q i * F (Fin.castLE h i) s) ∧
    (∀ N : ℕ, C ≠ min ((N + 1) ^ 2) K → inverseShtY Y F (some N) = .error .valueError) ∧
    (∀ N : ℕ, (N + 1) ^ 2 ≤ K → K < (N + 2) ^ 2 → inverseShtY Y F none = inverseShtY Y F (some N)) := by
  refine ⟨fun N h hC => ?_, fun N h => ?_, fun N h1 h2 => ?_⟩
  · have e : C = min ((N + 1) ^ 2) K := by
      rcases hC with hC | ⟨hC, hK⟩
      · rw [min_eq_left (hC ▸ h)]; exact hC
      · rw [min_eq_right hK.le]; exact hC
    exact ⟨_, dif_pos e, fun q s => rfl⟩
  · exact dif_neg h
  · have hM : (shOrder K + 1).toNat = N + 1 := by rw [((C11_order_iff K N).1).2 ⟨h1, h2⟩]; simp
    unfold inverseShtY
    simp only [hM]

/-- C134: passing the SH matrix of the order that would have been computed changes nothing. -/
theorem C134_precomputed {K S Q : ℕ} (azi zen : Fin Q → ℝ) (N : ℕ) (h : (N + 1) ^ 2 ≤ K) :
    (∀ F : Matrix (Fin K) (Fin S) ℝ, inverseShtY (shMat N azi zen) F (some N) = inverseSht F azi zen (some N)) ∧
    (∀ F : Matrix (Fin K) (Fin S) ℂ, inverseShtY (shMatC N azi zen) F (some N) = inverseShtC F azi zen (some N)) ∧
    (K < (N + 2) ^ 2 → (∀ F : Matrix (Fin K) (Fin S) ℝ, inverseShtY (shMat N azi zen) F none = inverseSht F azi zen none) ∧
      ∀ F : Matrix (Fin K) (Fin S) ℂ, inverseShtY (shMatC N azi zen) F none = inverseShtC F azi zen none) := by
  have a : ∀ F : Matrix (Fin K) (Fin S) ℝ, inverseShtY (shMat N azi zen) F (some N) = inverseSht F azi zen (some N) := by
    intro F
    obtain ⟨f, hf, ef⟩ := (C134_real F azi zen).1 N h
    obtain ⟨g, hg, eg⟩ := (C134_given (shMat N azi zen) F).1 N h (Or.inl rfl)
    rw [hf, hg]
    congr 1
    ext q s
    rw [ef, eg]; rfl
  have b : ∀ F : Matrix (Fin K) (Fin S) ℂ, inverseShtY (shMatC N azi zen) F (some N) = inverseShtC F azi zen (some N) := by
    intro F
    obtain ⟨f, hf, ef⟩ := (C134_complex F azi zen).1 N h
    obtain ⟨g, hg, eg⟩ := (C134_given (shMatC N azi zen) F).1 N h (Or.inl rfl)
    rw [hf, hg]
    congr 1
    ext q s
    rw [ef, eg]; rfl
  refine ⟨a, b, fun h2 => ⟨fun F => ?_, fun F => ?_⟩⟩
  · rw [(C134_given _ F).2.2 N h h2, (C134_real F azi zen).2.2 N h h2, a F]
  · rw [(C134_given _ F).2.2 N h h2, (C134_complex F azi zen).2.2 N h h2, b F]

/-- Example: seven channels hold order 1; the last three are ignored. -/
example (F : Matrix (Fin 7) (Fin 1) ℝ) (azi zen : Fin 2 → ℝ) :
    inverseSht F azi zen none = inverseSht F azi zen (some 1) ∧ inverseSht F azi zen (some 2) = .error .valueError :=
  ⟨(C134_real F azi zen).2.2 1 (by norm_num) (by norm_num), (C134_real F azi zen).2.1 2 (by norm_num)⟩

example (F : Matrix (Fin 7) (Fin 1) ℂ) (azi zen : Fin 2 → ℝ) :
    inverseShtC F azi zen none = inverseShtC F azi zen (some 1) ∧ inverseShtC F azi zen (some 2) = .error .valueError :=
  ⟨(C134_complex F azi zen).2.2 1 (by norm_num) (by norm_num), (C134_complex F azi zen).2.1 2 (by norm_num)⟩

/-- Example: an order that is too large is only noticed when the matrix has to be computed. -/
example (F : Matrix (Fin 4) (Fin 1) ℝ) (azi zen : Fin 2 → ℝ) :
    inverseSht F azi zen (some 2) = .error .valueError ∧ (∃ f, inverseShtY (shMat 1 azi zen) F (some 2) = .ok f) ∧
    inverseShtY (shMat 2 azi zen) F (some 2) = .error .valueError := by
  refine ⟨(C134_real F azi zen).2.1 2 (by norm_num), ?_, (C134_given (shMat 2 azi zen) F).2.1 2 (by norm_num)⟩
  obtain ⟨f, hf, -⟩ := (C134_given (shMat 1 azi zen) F).1 2 (by norm_num) (Or.inr ⟨by norm_num, by norm_num⟩)
  exact ⟨f, hf⟩

end Verif.Props
