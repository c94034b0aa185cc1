import Verif.Model.Decoder
import Mathlib.LinearAlgebra.Matrix.NonsingularInverse
import Mathlib.LinearAlgebra.Matrix.Rank
import Mathlib.Data.List.GetD
import Mathlib.Tactic

/-! Lemmas on `Model/Decoder.lean`: norms, inversion of triplets, the face search, list writes. -/

namespace Verif.Decoder
open Real Verif.Sph Verif.Utils

/-! ### Norms -/

theorem npNorm_nonneg (p : ℝ) {n : ℕ} (v : Fin n → ℝ) : 0 ≤ npNorm p v :=
  rpow_nonneg (Finset.sum_nonneg fun i _ => rpow_nonneg (abs_nonneg _) _) _

theorem npNorm_eq_zero {p : ℝ} (hp : 0 < p) {n : ℕ} (v : Fin n → ℝ) : npNorm p v = 0 ↔ v = 0 := by
  have hs : 0 ≤ ∑ i, |v i| ^ p := Finset.sum_nonneg fun i _ => rpow_nonneg (abs_nonneg _) _
  unfold npNorm
  rw [rpow_eq_zero hs (by positivity), Finset.sum_eq_zero_iff_of_nonneg fun i _ => rpow_nonneg (abs_nonneg _) _]
  constructor
  · intro h; funext i
    have := h i (Finset.mem_univ _)
    rw [rpow_eq_zero (abs_nonneg _) hp.ne', abs_eq_zero] at this
    exact this
  · rintro rfl i _
    simp [zero_rpow hp.ne']

theorem npNorm_smul {p : ℝ} (hp : 0 < p) {n : ℕ} (c : ℝ) (v : Fin n → ℝ) : npNorm p (fun i => c * v i) = |c| * npNorm p v := by
  unfold npNorm
  have : ∀ i, |c * v i| ^ p = |c| ^ p * |v i| ^ p := fun i => by rw [abs_mul, mul_rpow (abs_nonneg _) (abs_nonneg _)]
  simp only [this]
  rw [← Finset.mul_sum, mul_rpow (rpow_nonneg (abs_nonneg _) _) (Finset.sum_nonneg fun i _ => rpow_nonneg (abs_nonneg _) _),
    ← rpow_mul (abs_nonneg _), mul_one_div_cancel hp.ne', rpow_one]

theorem npNorm_div {p : ℝ} (hp : 0 < p) {n : ℕ} (v : Fin n → ℝ) (h : npNorm p v ≠ 0) : npNorm p (fun i => v i / npNorm p v) = 1 := by
  have := npNorm_smul hp (npNorm p v)⁻¹ v
  have e : (fun i => v i / npNorm p v) = fun i => (npNorm p v)⁻¹ * v i := by funext i; rw [div_eq_inv_mul]
  rw [e, this, abs_inv, abs_of_nonneg (npNorm_nonneg p v), inv_mul_cancel₀ h]

/-! ### The face search -/

theorem searchFaces_spec (p : ℝ) (s : Vec3) (Bs : List Mat3) (i0 : ℕ) :
    (searchFaces p s Bs i0 = none ∧ ∀ B ∈ Bs, tryFace p B s = none) ∨
    ∃ k B g, Bs[k]? = some B ∧ tryFace p B s = some g ∧ (∀ j B', j < k → Bs[j]? = some B' → tryFace p B' s = none) ∧
      searchFaces p s Bs i0 = some (i0 + k, g) := by
  induction Bs generalizing i0 with
  | nil => left; exact ⟨rfl, by simp⟩
  | cons B Bs ih =>
    rw [searchFaces]
    cases hB : tryFace p B s with
    | some g =>
      right
      refine ⟨0, B, g, rfl, hB, ?_, rfl⟩
      intro j B' hj; omega
    | none =>
      simp only
      rcases ih (i0 + 1) with ⟨h1, h2⟩ | ⟨k, B', g, h1, h2, h3, h4⟩
      · left
        refine ⟨h1, ?_⟩
        intro B' hB'
        rcases List.mem_cons.1 hB' with rfl | h
        · exact hB
        · exact h2 _ h
      · right
        refine ⟨k + 1, B', g, by simpa using h1, h2, ?_, ?_⟩
        · intro j B'' hj hB''
          cases j with
          | zero => simp at hB''; rw [← hB'']; exact hB
          | succ j => exact h3 j B'' (by omega) (by simpa using hB'')
        · rw [h4]; congr 2; omega

theorem tryFace_some {p : ℝ} {B : Mat3} {s g : Vec3} (h : tryFace p B s = some g) :
    npNorm p (B.mulVec s) ≠ 0 ∧ (∀ i, g i > -10e-6) ∧ g = fun i => B.mulVec s i / npNorm p (B.mulVec s) := by
  unfold tryFace at h
  simp only at h
  split_ifs at h with h1 h2
  cases h
  exact ⟨h1, h2, rfl⟩

theorem tryFace_iff (p : ℝ) (B : Mat3) (s : Vec3) : (tryFace p B s).isSome ↔
    npNorm p (B.mulVec s) ≠ 0 ∧ ∀ i, B.mulVec s i / npNorm p (B.mulVec s) > -10e-6 := by
  unfold tryFace
  simp only
  split_ifs with h1 h2
  · simp [h1]
  · simp only [Option.isSome_some, true_iff]; exact ⟨h1, h2⟩
  · simp only [Option.isSome_none, Bool.false_eq_true, false_iff, not_and]; exact fun _ => h2

theorem tryFace_scale {p : ℝ} (hp : 0 < p) (B : Mat3) (s : Vec3) {c : ℝ} (hc : 0 < c) : tryFace p B (c • s) = tryFace p B s := by
  unfold tryFace
  have e : B.mulVec (c • s) = fun i => c * B.mulVec s i := by rw [Matrix.mulVec_smul]; rfl
  rw [e]
  simp only [npNorm_smul hp c (B.mulVec s), abs_of_pos hc]
  have hd : ∀ i, c * B.mulVec s i / (c * npNorm p (B.mulVec s)) = B.mulVec s i / npNorm p (B.mulVec s) :=
    fun i => mul_div_mul_left _ _ hc.ne'
  simp only [hd, mul_eq_zero, hc.ne', false_or]

theorem searchFaces_scale {p : ℝ} (hp : 0 < p) (s : Vec3) {c : ℝ} (hc : 0 < c) (Bs : List Mat3) (i : ℕ) :
    searchFaces p (c • s) Bs i = searchFaces p s Bs i := by
  induction Bs generalizing i with
  | nil => rfl
  | cons B Bs ih => rw [searchFaces, searchFaces, tryFace_scale hp B s hc]; cases tryFace p B s <;> simp [ih]

/-! ### Inversion of triplets -/

/-- The base matrix of a face: its vertices as rows. -/
def baseMat {L : ℕ} (points : Fin L → Vec3) (f : Face L) : Mat3 := Matrix.of fun i => points (f i)

theorem li_iff_unit {L : ℕ} (points : Fin L → Vec3) (f : Face L) :
    LinearIndependent ℝ (fun i => points (f i)) ↔ IsUnit (baseMat points f) :=
  Matrix.linearIndependent_rows_iff_isUnit (A := baseMat points f)

theorem lstsq_unit {V X : Mat3} (h : IsLstsq V 1 X) (hV : IsUnit V) : V * X = 1 := by
  -- the residual can be made zero, so the minimiser attains zero
  have hV' : IsUnit V.det := (Matrix.isUnit_iff_isUnit_det V).1 hV
  ext q s
  have h0 := h.min s (fun k => V⁻¹ k s)
  have hz : ∀ q, V.mulVec (fun k => V⁻¹ k s) q - (1 : Mat3) q s = 0 := by
    intro q
    have : (V * V⁻¹) q s = (1 : Mat3) q s := by rw [Matrix.mul_nonsing_inv V hV']
    rw [sub_eq_zero, ← this]; rfl
  simp only [hz] at h0
  have h1 : ∑ q, (V.mulVec (fun k => X k s) q - (1 : Mat3) q s) ^ 2 = 0 :=
    le_antisymm (by simpa using h0) (Finset.sum_nonneg fun q _ => sq_nonneg _)
  rw [Finset.sum_eq_zero_iff_of_nonneg (fun q _ => sq_nonneg _)] at h1
  have := h1 q (Finset.mem_univ _)
  rw [sq_eq_zero_iff, sub_eq_zero] at this
  exact this

/-- For a linearly independent triplet the projection gives the coordinates of the source in the triplet. -/
theorem proj_coords {L : ℕ} {lstsq : Mat3 → Mat3} (hl : ∀ V, IsLstsq V 1 (lstsq V)) (points : Fin L → Vec3) (f : Face L)
    (hf : LinearIndependent ℝ fun i => points (f i)) (s c : Vec3) :
    (lstsq (baseMat points f)).transpose.mulVec s = c ↔ ∑ i, c i • points (f i) = s := by
  have hu := (li_iff_unit points f).1 hf
  set V := baseMat points f
  have h1 : V * lstsq V = 1 := lstsq_unit (hl V) hu
  have h2 : lstsq V * V = 1 := mul_eq_one_comm.1 h1
  have hsum : ∀ c : Vec3, ∑ i, c i • points (f i) = V.transpose.mulVec c := by
    intro c
    funext k
    rw [Finset.sum_apply]
    show _ = ∑ i, V.transpose k i * c i
    exact Finset.sum_congr rfl fun i _ => mul_comm _ _
  rw [hsum]
  constructor
  · rintro rfl
    rw [Matrix.mulVec_mulVec, ← Matrix.transpose_mul, h2, Matrix.transpose_one, Matrix.one_mulVec]
  · rintro rfl
    rw [Matrix.mulVec_mulVec, ← Matrix.transpose_mul, h1, Matrix.transpose_one, Matrix.one_mulVec]

/-! ### Row writes -/

theorem writeRow_off {L : ℕ} (f : Face L) (g : Vec3) (l : Fin L) (h : ∀ i, f i ≠ l) :
    writeRow [(f 0, g 0), (f 1, g 1), (f 2, g 2)] l = 0 := by
  unfold writeRow
  simp only [List.foldl_cons, List.foldl_nil]
  rw [Function.update_of_ne (h 2).symm, Function.update_of_ne (h 1).symm, Function.update_of_ne (h 0).symm]
  rfl

theorem writeRow_on {L : ℕ} (f : Face L) (hf : Function.Injective f) (g : Vec3) (i : Fin 3) :
    writeRow [(f 0, g 0), (f 1, g 1), (f 2, g 2)] (f i) = g i := by
  have h01 : f 0 ≠ f 1 := fun h => absurd (hf h) (by decide)
  have h02 : f 0 ≠ f 2 := fun h => absurd (hf h) (by decide)
  have h12 : f 1 ≠ f 2 := fun h => absurd (hf h) (by decide)
  match i with
  | 0 =>
    unfold writeRow
    simp only [List.foldl_cons, List.foldl_nil]
    rw [Function.update_of_ne h02, Function.update_of_ne h01, Function.update_self]
  | 1 =>
    unfold writeRow
    simp only [List.foldl_cons, List.foldl_nil]
    rw [Function.update_of_ne h12, Function.update_self]
  | 2 =>
    unfold writeRow
    simp only [List.foldl_cons, List.foldl_nil]
    rw [Function.update_self]

/-- A sum over all loudspeakers of a function supported on a face. -/
theorem sum_face {L : ℕ} {M : Type} [AddCommMonoid M] (f : Face L) (hf : Function.Injective f) (F : Fin L → M)
    (h : ∀ l, (∀ i, f i ≠ l) → F l = 0) : ∑ l, F l = ∑ i, F (f i) := by
  classical
  rw [← Finset.sum_image (s := Finset.univ) (g := f) (f := F) (fun a _ b _ hab => hf hab)]
  refine (Finset.sum_subset (Finset.subset_univ _) fun l _ hl => h l fun i hi => hl ?_).symm
  exact Finset.mem_image.2 ⟨i, Finset.mem_univ _, hi⟩

theorem npNorm_face {L : ℕ} {p : ℝ} (hp : 0 < p) (f : Face L) (hf : Function.Injective f) (g : Fin L → ℝ)
    (h : ∀ l, (∀ i, f i ≠ l) → g l = 0) : npNorm p g = npNorm p fun i => g (f i) := by
  unfold npNorm
  rw [sum_face f hf (fun l => |g l| ^ p)]
  intro l hl
  rw [h l hl, abs_zero, zero_rpow hp.ne']

/-! ### mapM over sources -/

theorem mapM_ok {α β : Type} (F : α → Py β) (l : List α) (h : ∀ x ∈ l, ∃ y, F x = .ok y) :
    ∃ ys, l.mapM F = .ok ys ∧ ys.length = l.length ∧ ∀ (i : ℕ) (x : α) (y : β), l[i]? = some x → ys[i]? = some y → F x = .ok y := by
  induction l with
  | nil => exact ⟨[], rfl, rfl, by simp⟩
  | cons x l ih =>
    obtain ⟨y, hy⟩ := h x (by simp)
    obtain ⟨ys, h1, h2, h3⟩ := ih fun x hx => h x (by simp [hx])
    refine ⟨y :: ys, ?_, by simp [h2], ?_⟩
    · rw [List.mapM_cons, hy, h1]; rfl
    · intro i a b ha hb
      cases i with
      | zero => simp at ha hb; subst ha; subst hb; exact hy
      | succ i => exact h3 i a b (by simpa using ha) (by simpa using hb)

theorem mapM_error {α β : Type} (F : α → Py β) (e : PyErr) (l : List α) (h : ∀ x e', F x = .error e' → e' = e)
    (hx : ∃ x ∈ l, F x = .error e) : l.mapM F = .error e := by
  induction l with
  | nil => simp at hx
  | cons x l ih =>
    rw [List.mapM_cons]
    cases hF : F x with
    | error e' => rw [h x e' hF]; rfl
    | ok y =>
      obtain ⟨x', hx', he⟩ := hx
      rcases List.mem_cons.1 hx' with rfl | hx'
      · rw [hF] at he; cases he
      · rw [ih ⟨x', hx', he⟩]; rfl

theorem mapM_ext_len {α β : Type} (F : α → Py β) (l : List α) (ys : List β) (h : l.map F = ys.map .ok) : l.mapM F = .ok ys := by
  induction l generalizing ys with
  | nil => cases ys with
    | nil => rfl
    | cons y ys => simp at h
  | cons x l ih => cases ys with
    | nil => simp at h
    | cons y ys =>
      simp only [List.map_cons, List.cons.injEq] at h
      rw [List.mapM_cons, h.1, ih ys h.2]; rfl

end Verif.Decoder
