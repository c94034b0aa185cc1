import Verif.Model.SphRot
import Verif.Proofs.Acn
import Verif.Proofs.SolidOrth2
import Mathlib.Tactic

/-!
The code's recursion computes the coefficients of `RotRec`.
-/

namespace Verif.Sph
open Real Verif.Solid

/-- Table of a function on `[-l, l]²`. -/
def tab (l : ℕ) (f : ℤ → ℤ → ℝ) : List (List ℝ) :=
  (List.range (2 * l + 1)).map fun (i : ℕ) => (List.range (2 * l + 1)).map fun (j : ℕ) => f ((i : ℤ) - l) ((j : ℤ) - l)

theorem pyGet_range_map {α : Type _} (n : ℕ) (f : ℕ → α) (i : ℤ) (h0 : 0 ≤ i) (h : i < n) :
    pyGet ((List.range n).map f) i = .ok (f i.toNat) := by
  unfold pyGet
  simp only [if_neg (not_lt.2 h0)]
  rw [List.getElem?_map, List.getElem?_range (by omega)]
  rfl

theorem npGet2_tab (l : ℕ) (f : ℤ → ℤ → ℝ) (a b : ℤ) (i j : ℤ) (hi : i = a + l) (hj : j = b + l) (ha : |a| ≤ l)
    (hb : |b| ≤ l) : npGet2 (tab l f) i j = .ok (f a b) := by
  rw [abs_le] at ha hb
  subst hi hj
  unfold npGet2 tab
  rw [pyGet_range_map _ _ _ (by omega) (by omega)]
  show pyGet _ _ = _
  rw [pyGet_range_map _ _ _ (by omega) (by omega)]
  congr 2 <;> omega

/-- Axis of a degree of order one. -/
def ax (m : ℤ) : Fin 3 := if m = 1 then 0 else if m = -1 then 1 else 2

theorem rotR1_eq (r : Matrix (Fin 3) (Fin 3) ℝ) : rotR1 r = tab 1 (fun a b => r (ax a) (ax b)) := by
  simp [rotR1, tab, ax, List.range_succ]

/-- The P function of the recursion. -/
noncomputable def pP (r : Matrix (Fin 3) (Fin 3) ℝ) (k : ℕ) (g : ℤ → ℤ → ℝ) (n : ℤ) (i : Fin 3) (a : ℤ) : ℝ :=
  if n = -((k : ℤ) + 1) then r i 0 * g a (-k) + r i 1 * g a k
  else if n = (k : ℤ) + 1 then r i 0 * g a k - r i 1 * g a (-k)
  else r i 2 * g a n

theorem rotP_eq (r : Matrix (Fin 3) (Fin 3) ℝ) (k : ℕ) (g : ℤ → ℤ → ℝ) (i a n : ℤ) (hi : |i| ≤ 1) (ha : |a| ≤ k)
    (hn : |n| ≤ (k : ℤ) + 1) (l : ℤ) (hl : l = (k : ℤ) + 1) :
    rotP i l a n (rotR1 r) (tab k g) = .ok (pP r k g n (ax i) a) := by
  subst hl
  have hk : |(k : ℤ)| ≤ k := by simp
  have hk' : |-(k : ℤ)| ≤ k := by simp
  have e1 : npGet2 (rotR1 r) (i + 1) 2 = .ok (r (ax i) 0) := by
    rw [rotR1_eq, npGet2_tab 1 _ i 1 _ _ (by simp) (by norm_num) (by exact_mod_cast hi) (by norm_num)]; rfl
  have e2 : npGet2 (rotR1 r) (i + 1) 0 = .ok (r (ax i) 1) := by
    rw [rotR1_eq, npGet2_tab 1 _ i (-1) _ _ (by simp) (by norm_num) (by exact_mod_cast hi) (by norm_num)]; rfl
  have e3 : npGet2 (rotR1 r) (i + 1) 1 = .ok (r (ax i) 2) := by
    rw [rotR1_eq, npGet2_tab 1 _ i 0 _ _ (by simp) (by norm_num) (by exact_mod_cast hi) (by norm_num)]; rfl
  unfold rotP pP
  simp only [e1, e2, e3, bind, Except.bind]
  split_ifs with h1 h2
  · rw [npGet2_tab k g a (-k) _ _ (by ring) (by ring) ha hk', npGet2_tab k g a k _ _ (by ring) (by ring) ha hk]; rfl
  · rw [npGet2_tab k g a k _ _ (by ring) (by ring) ha hk, npGet2_tab k g a (-k) _ _ (by ring) (by ring) ha hk']; rfl
  · rw [npGet2_tab k g a n _ _ (by ring) (by ring) ha (by rw [abs_le] at hn ⊢; omega)]; rfl

theorem rotU_eq (r : Matrix (Fin 3) (Fin 3) ℝ) (k : ℕ) (g : ℤ → ℤ → ℝ) (m n : ℤ)
    (hn : |n| ≤ (k : ℤ) + 1) (hm : |m| ≤ k) :
    rotU ((k : ℤ) + 1) m n (rotR1 r) (tab k g) = .ok (pP r k g n 2 m) := by
  unfold rotU
  rw [rotP_eq r k g 0 m n (by norm_num) hm hn _ rfl]; rfl

theorem rotV_eq (r : Matrix (Fin 3) (Fin 3) ℝ) (k : ℕ) (hk : 1 ≤ k) (g : ℤ → ℤ → ℝ) (m n : ℤ)
    (hn : |n| ≤ (k : ℤ) + 1) (hm : |m| ≤ (k : ℤ) + 1) :
    rotV ((k : ℤ) + 1) m n (rotR1 r) (tab k g) = .ok (combV m (pP r k g n)) := by
  unfold rotV combV
  rw [abs_le] at hm
  have a0 : ax 1 = 0 := rfl
  have a1 : ax (-1) = 1 := rfl
  split_ifs with h1 h2 h3 h4
  · rw [rotP_eq r k g 1 1 n (by norm_num) (by rw [abs_le]; omega) hn _ rfl,
      rotP_eq r k g (-1) (-1) n (by norm_num) (by rw [abs_le]; omega) hn _ rfl, a0, a1]; rfl
  · rw [rotP_eq r k g 1 (m - 1) n (by norm_num) (by rw [abs_le]; omega) hn _ rfl, a0]
    show Except.ok _ = _
    rw [smul_eq_mul, mul_comm]
  · rw [rotP_eq r k g 1 (m - 1) n (by norm_num) (by rw [abs_le]; omega) hn _ rfl,
      rotP_eq r k g (-1) (1 - m) n (by norm_num) (by rw [abs_le]; omega) hn _ rfl, a0, a1]; rfl
  · rw [rotP_eq r k g (-1) (-m - 1) n (by norm_num) (by rw [abs_le]; omega) hn _ rfl, a1]
    show Except.ok _ = _
    rw [smul_eq_mul, mul_comm]
  · rw [rotP_eq r k g (-1) (-m - 1) n (by norm_num) (by rw [abs_le]; omega) hn _ rfl,
      rotP_eq r k g 1 (m + 1) n (by norm_num) (by rw [abs_le]; omega) hn _ rfl, a0, a1]; rfl

theorem rotW_eq (r : Matrix (Fin 3) (Fin 3) ℝ) (k : ℕ) (g : ℤ → ℤ → ℝ) (m n : ℤ)
    (hn : |n| ≤ (k : ℤ) + 1) (hm : |m| + 1 ≤ (k : ℤ)) :
    rotW ((k : ℤ) + 1) m n (rotR1 r) (tab k g) = .ok (combW m (pP r k g n)) := by
  unfold rotW combW
  have hm' : |m| ≤ (k : ℤ) - 1 := by omega
  rw [abs_le] at hm'
  have a0 : ax 1 = 0 := rfl
  have a1 : ax (-1) = 1 := rfl
  split_ifs with h1 h2
  · rw [rotP_eq r k g 1 (m + 1) n (by norm_num) (by rw [abs_le]; omega) hn _ rfl,
      rotP_eq r k g (-1) (-m - 1) n (by norm_num) (by rw [abs_le]; omega) hn _ rfl, a0, a1]; rfl
  · rw [rotP_eq r k g 1 (m - 1) n (by norm_num) (by rw [abs_le]; omega) hn _ rfl,
      rotP_eq r k g (-1) (1 - m) n (by norm_num) (by rw [abs_le]; omega) hn _ rfl, a0, a1]; rfl
  · rfl

/-- Denominator of the recursion. -/
noncomputable def rotDen (l : ℕ) (n : ℤ) : ℝ :=
  if |n| = (l : ℤ) then (2 * l) * (2 * l - 1) else (l : ℝ) * l - n * n

theorem rotDen_pos (l : ℕ) (hl : 1 ≤ l) (n : ℤ) (hn : |n| ≤ (l : ℤ)) : 0 < rotDen l n := by
  unfold rotDen
  have h1 : (1 : ℝ) ≤ l := by exact_mod_cast hl
  split_ifs with h
  · nlinarith
  · have : |n| < (l : ℤ) := lt_of_le_of_ne hn h
    have h2 : |(n : ℝ)| < l := by exact_mod_cast this
    have := sq_lt_sq' (by rw [abs_lt] at h2; exact h2.1) (by rw [abs_lt] at h2; exact h2.2)
    nlinarith

theorem rotEntry_eq (r : Matrix (Fin 3) (Fin 3) ℝ) (k : ℕ) (hk : 1 ≤ k) (g : ℤ → ℤ → ℝ) (m n : ℤ)
    (hm : |m| ≤ (k : ℤ) + 1) (hn : |n| ≤ (k : ℤ) + 1) :
    rotEntry ((k + 1 : ℕ) : ℤ) m n (rotR1 r) (tab k g)
      = .ok (rowComb (k + 1) m (pP r k g n) / √(rotDen (k + 1) n)) := by
  have hd : 0 < rotDen (k + 1) n := rotDen_pos (k + 1) (by omega) n (by push_cast; exact hn)
  have hu : ∀ x : ℝ, √(x / rotDen (k + 1) n) = √x / √(rotDen (k + 1) n) := fun x => Real.sqrt_div' x hd.le
  set D := √(rotDen (k + 1) n) with hD
  have hD0 : D ≠ 0 := (Real.sqrt_pos.2 hd).ne'
  have hden : (if |n| = ((k + 1 : ℕ) : ℤ) then (2 * (((k + 1 : ℕ) : ℤ) : ℝ)) * (2 * (((k + 1 : ℕ) : ℤ) : ℝ) - 1)
      else (((k + 1 : ℕ) : ℤ) : ℝ) * (((k + 1 : ℕ) : ℤ) : ℝ) - n * n) = rotDen (k + 1) n := by
    unfold rotDen; simp only [Int.cast_natCast]
  unfold rotEntry
  simp only [hden, hu]
  simp only [Int.cast_natCast]
  have eU : √(((k + 1 : ℕ) : ℝ) * ((k + 1 : ℕ) : ℝ) - m * m) = rowU (k + 1) m := rfl
  have eV : √((1 + if m = 0 then (1 : ℝ) else 0) * (((k + 1 : ℕ) : ℝ) + |(m : ℝ)| - 1) * (((k + 1 : ℕ) : ℝ) + |(m : ℝ)|)) / D
      * (1 - 2 * if m = 0 then (1 : ℝ) else 0) * (1 / 2) = rowV (k + 1) m / D := by
    unfold rowV; ring
  have eW : √((((k + 1 : ℕ) : ℝ) - |(m : ℝ)| - 1) * (((k + 1 : ℕ) : ℝ) - |(m : ℝ)|)) / D
      * (1 - if m = 0 then (1 : ℝ) else 0) * (-(1 / 2)) = rowW (k + 1) m / D := by
    unfold rowW; ring
  rw [eU, eV, eW]
  have sU : mulGuarded (rowU (k + 1) m / D) (rotU ((k + 1 : ℕ) : ℤ) m n (rotR1 r) (tab k g)) = .ok (rowU (k + 1) m / D * pP r k g n 2 m) := by
    unfold mulGuarded
    split_ifs with h
    · have hne : rowU (k + 1) m ≠ 0 := fun h0 => h (by rw [h0, zero_div])
      have : |m| ≤ (k : ℤ) := by
        by_contra hc
        have h1 : |m| = (k : ℤ) + 1 := by omega
        apply hne
        have h2 : |(m : ℝ)| = (k : ℝ) + 1 := by exact_mod_cast h1
        have h3 : (m : ℝ) * m = ((k : ℝ) + 1) ^ 2 := by rw [← h2, sq_abs]; ring
        unfold rowU; push_cast; rw [h3]; ring_nf; simp
      push_cast
      rw [rotU_eq r k g m n hn this]; rfl
    · push Not at h
      rw [h, zero_mul]; rfl
  have sV : mulGuarded (rowV (k + 1) m / D) (rotV ((k + 1 : ℕ) : ℤ) m n (rotR1 r) (tab k g)) = .ok (rowV (k + 1) m / D * combV m (pP r k g n)) := by
    unfold mulGuarded
    split_ifs with h
    · push_cast
      rw [rotV_eq r k hk g m n hn hm]; rfl
    · push Not at h
      rw [h, zero_mul]; rfl
  have sW : mulGuarded (rowW (k + 1) m / D) (rotW ((k + 1 : ℕ) : ℤ) m n (rotR1 r) (tab k g)) = .ok (rowW (k + 1) m / D * combW m (pP r k g n)) := by
    unfold mulGuarded
    split_ifs with h
    · have hne : rowW (k + 1) m ≠ 0 := fun h0 => h (by rw [h0, zero_div])
      have : |m| + 1 ≤ (k : ℤ) := by
        by_contra hc
        apply hne
        have h1 : |m| = (k : ℤ) + 1 ∨ |m| = (k : ℤ) := by omega
        unfold rowW
        rcases h1 with h1 | h1
        · have h2 : |(m : ℝ)| = (k : ℝ) + 1 := by exact_mod_cast h1
          rw [h2]; push_cast; simp
        · have h2 : |(m : ℝ)| = (k : ℝ) := by exact_mod_cast h1
          rw [h2]; push_cast; simp
      push_cast
      rw [rotW_eq r k g m n hn this]; rfl
    · push Not at h
      rw [h, zero_mul]; rfl
  rw [sU, sV, sW]
  show Except.ok _ = _
  congr 1
  unfold rowComb
  simp only [smul_eq_mul]
  field_simp

end Verif.Sph
