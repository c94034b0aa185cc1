import Verif.Props.DesignDecoding
import Verif.Props.ModeMatching

/-! Pressure, velocity and higher moments of decoded scenes: C163. -/

namespace Verif.Props
open Decoder Sph Matrix Real Utils

/-- Loudspeaker signals that re-encode a scene reproduce all its moments up to the order. -/
theorem moments_of_reencode {L S k N : ℕ} (out : Matrix (Fin L) (Fin S) ℝ) (uAzi uZen : Fin L → ℝ) (hu : ∀ l, uZen l ∈ Set.Icc 0 π)
    (sig : Matrix (Fin k) (Fin S) ℝ) (azi zen : Fin k → ℝ) (hz : ∀ i, zen i ∈ Set.Icc 0 π) (g : ℝ)
    (h : ∀ q t, srcToSh out uAzi uZen N q t = g * srcToSh sig azi zen N q t) (p : MvPolynomial (Fin 3) ℝ) (hp : p.totalDegree ≤ N) (t : Fin S) :
    ∑ l, out l t * MvPolynomial.eval (dirVec (uAzi l) (uZen l)) p = g * ∑ i, sig i t * MvPolynomial.eval (dirVec (azi i) (zen i)) p := by
  obtain ⟨c, hc⟩ := (C79_polynomials N fun a z => MvPolynomial.eval (dirVec a z) p).2 ⟨p, hp, fun _ _ _ => rfl⟩
  have key : ∀ {n : ℕ} (x : Matrix (Fin n) (Fin S) ℝ) (a z : Fin n → ℝ), (∀ i, z i ∈ Set.Icc 0 π) →
      ∑ i, x i t * MvPolynomial.eval (dirVec (a i) (z i)) p = ∑ q, c q * srcToSh x a z N q t := by
    intro n x a z hz
    have e : ∀ q, c q * srcToSh x a z N q t = ∑ i, x i t * (c q * shVec N (a i) (z i) q) := by
      intro q
      unfold srcToSh
      rw [mul_apply, Finset.mul_sum]
      refine Finset.sum_congr rfl fun i _ => ?_
      rw [transpose_apply]
      change c q * (shVec N (a i) (z i) q * x i t) = _
      ring
    rw [Finset.sum_congr rfl fun q _ => e q, Finset.sum_comm]
    refine Finset.sum_congr rfl fun i _ => ?_
    rw [← Finset.mul_sum, ← hc (a i) (z i) (hz i)]
  rw [key out uAzi uZen hu, key sig azi zen hz, Finset.mul_sum]
  refine Finset.sum_congr rfl fun q _ => ?_
  rw [h q t]; ring

/-- **C163**: if the loudspeakers allow for mode matching (full column rank), the signals of `mad` for a scene of any number of encoded sources have, at every sample, the moments of
the scene: any polynomial in the direction up to degree `N`, weighted with the signals, adds up over the loudspeakers to `√L/(N+1)` times what it adds up to over the sources. -/
theorem C163_mad_moments {L S k N : ℕ} (lstsq : Mat3 → Mat3) (pinv : {m n : ℕ} → Matrix (Fin m) (Fin n) ℝ → Matrix (Fin n) (Fin m) ℝ)
    (hpinv : ∀ {m n : ℕ} (A : Matrix (Fin m) (Fin n) ℝ), IsPinv A (pinv A)) (h : Hull L) (h0 : ∀ l, h.points l ≠ 0)
    (hrank : LinearIndependent ℝ (shMat N (fun l => (dirOf (h.points l)).1) (fun l => (dirOf (h.points l)).2)).col)
    (sig : Matrix (Fin k) (Fin S) ℝ) (azi zen : Fin k → ℝ) (hz : ∀ i, zen i ∈ Set.Icc 0 π) :
    ∃ out, mad lstsq pinv (srcToSh sig azi zen N) h (some N) = .ok out ∧ ∀ (p : MvPolynomial (Fin 3) ℝ), p.totalDegree ≤ N → ∀ t,
      ∑ l, out l t * MvPolynomial.eval (fun c => h.points l c / norm3 (h.points l)) p = √L / (N + 1) * ∑ i, sig i t * MvPolynomial.eval (dirVec (azi i) (zen i)) p := by
  obtain ⟨out, h1, h2⟩ := C43_mad lstsq pinv hpinv (srcToSh sig azi zen N) h (some N) N rfl le_rfl hrank
  refine ⟨out, h1, fun p hp t => ?_⟩
  have := moments_of_reencode out _ _ (fun l => dirOf_zenith (h.points l)) sig azi zen hz (√L / (N + 1)) (fun q t => h2 q t) p hp t
  rw [← this]
  exact Finset.sum_congr rfl fun l _ => by rw [dirVec_dirOf _ (h0 l)]

/-- On loudspeakers forming a design of strength `2N`, `epad` is `sad`. -/
theorem epad_eq_sad_design {L K S N t : ℕ} (lstsq : Mat3 → Mat3) (svd : {m n : ℕ} → Matrix (Fin m) (Fin n) ℝ → Matrix (Fin m) (Fin m) ℝ × Matrix (Fin n) (Fin n) ℝ)
    (hsvd : ∀ {m n : ℕ} (A : Matrix (Fin m) (Fin n) ℝ), IsSvd A (svd A).1 (svd A).2) (F : Matrix (Fin K) (Fin S) ℝ) (h : Hull L)
    (hd : IsTDesign t (fun l => (dirOf (h.points l)).1) (fun l => (dirOf (h.points l)).2)) (ht : 2 * N ≤ t) (No : Option ℕ) (hN : decodingOrder lstsq h No = .ok N) :
    epad lstsq svd F h No = sad lstsq F h No := by
  have hL : (0 : ℝ) < L := by exact_mod_cast hd.pos
  have hpi := pi_pos
  have hK : (N + 1) ^ 2 ≤ L := design_points_le hd (by omega)
  have hgram : (shAt N h.points).transpose * shAt N h.points = ((L : ℝ) / (4 * π)) • 1 := design_gram hd (by omega)
  have hD : (svd (shAt N h.points)).1 * npEye L ((N + 1) ^ 2) * (svd (shAt N h.points)).2 = (√((L : ℝ) / (4 * π)))⁻¹ • shAt N h.points := by
    have := congrArg (fun M => (√((L : ℝ) / (4 * π)))⁻¹ • M) (svd_design hK _ _ _ (hsvd (shAt N h.points)) _ hgram)
    simp only [smul_smul] at this
    rw [inv_mul_cancel₀ (by positivity), one_smul] at this
    exact this
  rw [epad_eq lstsq svd F h No N hN, sad_eq lstsq F h No N hN, hD, smul_smul, smul_smul, smul_smul]
  have e : √((L : ℝ) / ((N : ℝ) + 1) ^ 2) * (√(4 * π / L) * (√((L : ℝ) / (4 * π)))⁻¹) = √(4 * π / L) * √(4 * π / ((N : ℝ) + 1) ^ 2) := by
    rw [← Real.sqrt_inv, inv_div, Real.mul_self_sqrt (by positivity), ← Real.sqrt_mul (by positivity), Real.sqrt_div (by positivity), Real.sqrt_sq (by positivity)]
    have e2 : 4 * π / L * (4 * π / ((N : ℝ) + 1) ^ 2) = (4 * π / ((N : ℝ) + 1)) ^ 2 / L := by field_simp
    rw [e2, Real.sqrt_div (by positivity), Real.sqrt_sq (by positivity)]
    have h1 : √(L : ℝ) ≠ 0 := by positivity
    have h2 : √(L : ℝ) * √(L : ℝ) = L := Real.mul_self_sqrt hL.le
    field_simp
    nlinarith
  rw [mul_assoc, e]

/-- **C163**: so they do for `sad` and `epad`, which is the same there, on loudspeakers forming a design of strength `2N`. -/
theorem C163_design_moments {L S k N t : ℕ} (lstsq : Mat3 → Mat3) (svd : {m n : ℕ} → Matrix (Fin m) (Fin n) ℝ → Matrix (Fin m) (Fin m) ℝ × Matrix (Fin n) (Fin n) ℝ)
    (hsvd : ∀ {m n : ℕ} (A : Matrix (Fin m) (Fin n) ℝ), IsSvd A (svd A).1 (svd A).2) (h : Hull L) (h0 : ∀ l, h.points l ≠ 0)
    (hd : IsTDesign t (fun l => (dirOf (h.points l)).1) (fun l => (dirOf (h.points l)).2)) (ht : 2 * N ≤ t)
    (sig : Matrix (Fin k) (Fin S) ℝ) (azi zen : Fin k → ℝ) (hz : ∀ i, zen i ∈ Set.Icc 0 π) :
    ∃ out, sad lstsq (srcToSh sig azi zen N) h (some N) = .ok out ∧ epad lstsq svd (srcToSh sig azi zen N) h (some N) = .ok out ∧
      ∀ (p : MvPolynomial (Fin 3) ℝ), p.totalDegree ≤ N → ∀ t,
      ∑ l, out l t * MvPolynomial.eval (fun c => h.points l c / norm3 (h.points l)) p = √L / (N + 1) * ∑ i, sig i t * MvPolynomial.eval (dirVec (azi i) (zen i)) p := by
  obtain ⟨out, h1, h2⟩ := C43_sad lstsq (srcToSh sig azi zen N) h (some N) N rfl le_rfl hd ht
  refine ⟨out, h1, (epad_eq_sad_design lstsq svd hsvd _ h hd ht (some N) rfl).trans h1, fun p hp t => ?_⟩
  have := moments_of_reencode out _ _ (fun l => dirOf_zenith (h.points l)) sig azi zen hz (√L / (N + 1)) (fun q t => h2 q t) p hp t
  rw [← this]
  exact Finset.sum_congr rfl fun l _ => by rw [dirVec_dirOf _ (h0 l)]

/-- **C163**: pressure and velocity of a plane wave: the sum of the loudspeaker signals is `√L/(N+1)` times the signal, and their vector sum in addition points from the listener to the
source: the velocity vector has length one. -/
theorem C163_velocity {L S N : ℕ} (hN : 1 ≤ N) (lstsq : Mat3 → Mat3) (pinv : {m n : ℕ} → Matrix (Fin m) (Fin n) ℝ → Matrix (Fin n) (Fin m) ℝ)
    (hpinv : ∀ {m n : ℕ} (A : Matrix (Fin m) (Fin n) ℝ), IsPinv A (pinv A)) (h : Hull L) (h0 : ∀ l, h.points l ≠ 0)
    (hrank : LinearIndependent ℝ (shMat N (fun l => (dirOf (h.points l)).1) (fun l => (dirOf (h.points l)).2)).col)
    (sig : Fin S → ℝ) (azi zen : ℝ) (hz : zen ∈ Set.Icc 0 π) :
    ∃ out, mad lstsq pinv (srcToSh (Matrix.of fun _ : Fin 1 => sig) (fun _ => azi) (fun _ => zen) N) h (some N) = .ok out ∧ ∀ t,
      ∑ l, out l t = √L / (N + 1) * sig t ∧
      (∀ c, ∑ l, out l t * (h.points l c / norm3 (h.points l)) = √L / (N + 1) * sig t * dirVec azi zen c) ∧
      (sig t ≠ 0 → ∀ c, (∑ l, out l t * (h.points l c / norm3 (h.points l))) / ∑ l, out l t = dirVec azi zen c) := by
  obtain ⟨out, h1, h2⟩ := C163_mad_moments lstsq pinv hpinv h h0 hrank (Matrix.of fun _ : Fin 1 => sig) (fun _ => azi) (fun _ => zen) (fun _ => hz)
  have hL : 0 < L := by
    rcases Nat.eq_zero_or_pos L with rfl | hL
    · exfalso
      have := hrank.ne_zero ⟨0, by positivity⟩
      exact this (funext fun i => i.elim0)
    · exact hL
  have hL' : (0 : ℝ) < L := by positivity
  have hsum : ∀ t, ∑ l, out l t = √L / (N + 1) * sig t := by
    intro t
    have := h2 1 (by simp) t
    simpa using this
  have hvec : ∀ t c, ∑ l, out l t * (h.points l c / norm3 (h.points l)) = √L / (N + 1) * sig t * dirVec azi zen c := by
    intro t c
    have := h2 (MvPolynomial.X c) (by rw [MvPolynomial.totalDegree_X]; exact hN) t
    simp only [MvPolynomial.eval_X, Finset.univ_unique, Finset.sum_singleton, Matrix.of_apply] at this
    rw [this]; ring
  refine ⟨out, h1, fun t => ⟨hsum t, hvec t, fun hs c => ?_⟩⟩
  rw [hvec, hsum]
  have : √(L : ℝ) / ((N : ℝ) + 1) * sig t ≠ 0 := mul_ne_zero (by positivity) hs
  field_simp

/-- A setup with the eight loudspeakers of a cube. -/
noncomputable def cubeHull (azi zen : Fin 8 → ℝ) : Hull 8 where
  points := fun l => dirVec (azi l) (zen l)
  listener := 0
  d := fun _ => 1
  a := 1
  simplices := []
  centroids := []
  faceAreas := []
  faceNormals := []
  barycenter := 0
  encloses := []
  valid := []
  invBase := none
  charOrder := none

/-- C163 on the cube at order 1: a plane wave from any direction has velocity vector one with `mad`, and two sources with `sad` and `epad` the right vector sum. -/
example (sig : Fin 3 → ℝ) (two : Matrix (Fin 2) (Fin 3) ℝ) (a : ℝ) (as : Fin 2 → ℝ) : ∃ (azi zen : Fin 8 → ℝ) (pinv : {m n : ℕ} → Matrix (Fin m) (Fin n) ℝ → Matrix (Fin n) (Fin m) ℝ)
    (svd : {m n : ℕ} → Matrix (Fin m) (Fin n) ℝ → Matrix (Fin m) (Fin m) ℝ × Matrix (Fin n) (Fin n) ℝ),
    (∃ out, mad id pinv (srcToSh (Matrix.of fun _ : Fin 1 => sig) (fun _ => a) (fun _ => π / 3) 1) (cubeHull azi zen) (some 1) = .ok out ∧ ∀ t, sig t ≠ 0 → ∀ c,
      (∑ l, out l t * ((cubeHull azi zen).points l c / norm3 ((cubeHull azi zen).points l))) / ∑ l, out l t = dirVec a (π / 3) c) ∧
    ∃ out, epad id svd (srcToSh two as (fun _ => π / 2) 1) (cubeHull azi zen) (some 1) = .ok out ∧
      ∀ (p : MvPolynomial (Fin 3) ℝ), p.totalDegree ≤ 1 → ∀ t, ∑ l, out l t * MvPolynomial.eval (fun c => (cubeHull azi zen).points l c / norm3 ((cubeHull azi zen).points l)) p =
        √(8 : ℕ) / ((1 : ℕ) + 1) * ∑ i, two i t * MvPolynomial.eval (dirVec (as i) (π / 2)) p := by
  obtain ⟨azi, zen, hd⟩ := cube_design
  choose P hP using fun (m n : ℕ) (A : Matrix (Fin m) (Fin n) ℝ) => exists_pinv A
  choose U V h using fun (m n : ℕ) (A : Matrix (Fin m) (Fin n) ℝ) => exists_svd A
  have hd' : IsTDesign 3 (fun l => (dirOf ((cubeHull azi zen).points l)).1) (fun l => (dirOf ((cubeHull azi zen).points l)).2) := design_points hd
  have h0 : ∀ l, (cubeHull azi zen).points l ≠ 0 := fun l => dirVec_ne_zero _ _
  refine ⟨azi, zen, fun {m n} A => P m n A, fun {m n} A => (U m n A, V m n A), ?_, ?_⟩
  · obtain ⟨out, h1, h2⟩ := C163_velocity le_rfl id (fun {m n} A => P m n A) (fun A => hP _ _ A) (cubeHull azi zen) h0 (design_rank hd' (by norm_num)) sig a (π / 3)
      ⟨by positivity, by linarith [pi_pos]⟩
    exact ⟨out, h1, fun t => (h2 t).2.2⟩
  · obtain ⟨out, -, h2, h3⟩ := C163_design_moments (N := 1) id (fun {m n} A => (U m n A, V m n A)) (fun A => h _ _ A) (cubeHull azi zen) h0 hd' (by norm_num) two as (fun _ => π / 2)
      (fun _ => ⟨by positivity, by linarith [pi_pos]⟩)
    exact ⟨out, h2, h3⟩

end Verif.Props
