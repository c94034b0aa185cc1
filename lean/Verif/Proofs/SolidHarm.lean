import Verif.Proofs.SolidT
import Mathlib.Tactic.Algebra.Basic

/-!
Real and imaginary parts of the solid harmonics `R_l^m`, as elements of a commutative real algebra, and their gradients.
-/

namespace Verif.Solid
open Finset Nat

variable {A : Type*} [CommRing A] [Algebra ℝ A]

/-- Real and imaginary part of `(x + iy)^m`. -/
def cs (x y : A) : ℕ → A × A
  | 0 => (1, 0)
  | m + 1 => (x * (cs x y m).1 - y * (cs x y m).2, x * (cs x y m).2 + y * (cs x y m).1)

theorem D_cs (D : Derivation ℝ A A) (x y : A) : ∀ m : ℕ,
    D (cs x y (m + 1)).1 = ((m : ℝ) + 1) • ((cs x y m).1 * D x - (cs x y m).2 * D y) ∧
    D (cs x y (m + 1)).2 = ((m : ℝ) + 1) • ((cs x y m).2 * D x + (cs x y m).1 * D y)
  | 0 => by simp [cs]
  | m + 1 => by
    obtain ⟨h1, h2⟩ := D_cs D x y m
    constructor
    · rw [cs]
      simp only [map_sub, Derivation.leibniz, smul_eq_mul]
      rw [h1, h2]
      simp only [cs]; push_cast
      algebra
    · rw [cs]
      simp only [map_add, Derivation.leibniz, smul_eq_mul]
      rw [h1, h2]
      simp only [cs]; push_cast
      algebra

/-- `-(x²+y²)/4`. -/
noncomputable def W (x y : A) : A := (-(1 / 4) : ℝ) • (x ^ 2 + y ^ 2)

theorem D_W (D : Derivation ℝ A A) (x y : A) : D (W x y) = (-(1 / 2) : ℝ) • (x * D x + y * D y) := by
  unfold W
  rw [Derivation.map_smul, map_add, Derivation.leibniz_pow, Derivation.leibniz_pow]
  simp only [smul_eq_mul, Nat.cast_ofNat, nsmul_eq_mul, pow_one, Nat.add_one_sub_one]
  algebra

/-- Real part of the solid harmonic. -/
noncomputable def Cc (x y z : A) (l m : ℕ) : A := ((2 : ℝ) ^ m)⁻¹ • ((cs x y m).1 * T z (W x y) l m)
/-- Imaginary part of the solid harmonic. -/
noncomputable def Ss (x y z : A) (l m : ℕ) : A := ((2 : ℝ) ^ m)⁻¹ • ((cs x y m).2 * T z (W x y) l m)

theorem Ss_zero (x y z : A) (l : ℕ) : Ss x y z l 0 = 0 := by simp [Ss, cs]
theorem Cc_of_lt (x y z : A) {l m : ℕ} (h : l < m) : Cc x y z l m = 0 := by simp [Cc, T_zero_of_lt _ _ h]
theorem Ss_of_lt (x y z : A) {l m : ℕ} (h : l < m) : Ss x y z l m = 0 := by simp [Ss, T_zero_of_lt _ _ h]

theorem W_cs (x y : A) (m : ℕ) :
    W x y * (cs x y m).1 = (-(1 / 4) : ℝ) • (x * (cs x y (m + 1)).1 + y * (cs x y (m + 1)).2) ∧
    W x y * (cs x y m).2 = (-(1 / 4) : ℝ) • (x * (cs x y (m + 1)).2 - y * (cs x y (m + 1)).1) := by
  simp only [W, cs]
  constructor <;> algebra

theorem D_Cc_zero (D : Derivation ℝ A A) (x y z : A) (l : ℕ) :
    D (Cc x y z (l + 1) 0) = D z * Cc x y z l 0 - D x * Cc x y z l 1 - D y * Ss x y z l 1 := by
  simp only [Cc, Ss, cs]
  rw [Derivation.map_smul, Derivation.leibniz, D_T, D_W]
  simp only [Derivation.map_one_eq_zero, smul_eq_mul]
  algebra

theorem D_Cc_succ (D : Derivation ℝ A A) (x y z : A) (l m : ℕ) :
    D (Cc x y z (l + 1) (m + 1)) = D z * Cc x y z l (m + 1)
      + (1 / 2 : ℝ) • (D x * (Cc x y z l m - Cc x y z l (m + 2)))
      - (1 / 2 : ℝ) • (D y * (Ss x y z l m + Ss x y z l (m + 2))) := by
  have h1 := (D_cs D x y m).1
  have hl := T_lower z (W x y) l m
  have hw := W_cs x y m
  simp only [Cc, Ss]
  rw [Derivation.map_smul, Derivation.leibniz, D_T, D_W, h1]
  simp only [smul_eq_mul]
  have e2 : ((2 : ℝ) ^ (m + 1))⁻¹ = (1 / 2) * ((2 : ℝ) ^ m)⁻¹ := by rw [pow_succ]; field_simp
  have e3 : ((2 : ℝ) ^ (m + 2))⁻¹ = (1 / 4) * ((2 : ℝ) ^ m)⁻¹ := by rw [pow_add]; norm_num
  rw [e2, e3, ← hl]
  have c2 : cs x y (m + 2) = (x * (cs x y (m + 1)).1 - y * (cs x y (m + 1)).2,
    x * (cs x y (m + 1)).2 + y * (cs x y (m + 1)).1) := rfl
  rw [c2]
  set c0 := (cs x y m).1
  set s0 := (cs x y m).2
  set c1 := (cs x y (m + 1)).1
  set s1 := (cs x y (m + 1)).2
  set a := ((2 : ℝ) ^ m)⁻¹
  set T2 := T z (W x y) l (m + 2)
  linear_combination (norm := algebra) ((-(1 / 2) * a) • (D x * T2)) * hw.1 + ((1 / 2 * a) • (D y * T2)) * hw.2

theorem D_Ss_succ (D : Derivation ℝ A A) (x y z : A) (l m : ℕ) :
    D (Ss x y z (l + 1) (m + 1)) = D z * Ss x y z l (m + 1)
      + (1 / 2 : ℝ) • (D x * (Ss x y z l m - Ss x y z l (m + 2)))
      + (1 / 2 : ℝ) • (D y * (Cc x y z l m + Cc x y z l (m + 2))) := by
  have h1 := (D_cs D x y m).2
  have hl := T_lower z (W x y) l m
  have hw := W_cs x y m
  simp only [Cc, Ss]
  rw [Derivation.map_smul, Derivation.leibniz, D_T, D_W, h1]
  simp only [smul_eq_mul]
  have e2 : ((2 : ℝ) ^ (m + 1))⁻¹ = (1 / 2) * ((2 : ℝ) ^ m)⁻¹ := by rw [pow_succ]; field_simp
  have e3 : ((2 : ℝ) ^ (m + 2))⁻¹ = (1 / 4) * ((2 : ℝ) ^ m)⁻¹ := by rw [pow_add]; norm_num
  rw [e2, e3, ← hl]
  have c2 : cs x y (m + 2) = (x * (cs x y (m + 1)).1 - y * (cs x y (m + 1)).2,
    x * (cs x y (m + 1)).2 + y * (cs x y (m + 1)).1) := rfl
  rw [c2]
  set c0 := (cs x y m).1
  set s0 := (cs x y m).2
  set c1 := (cs x y (m + 1)).1
  set s1 := (cs x y (m + 1)).2
  set a := ((2 : ℝ) ^ m)⁻¹
  set T2 := T z (W x y) l (m + 2)
  linear_combination (norm := algebra) ((-(1 / 2) * a) • (D x * T2)) * hw.2 + ((-(1 / 2) * a) • (D y * T2)) * hw.1

end Verif.Solid
