import Verif.Props.Mirror
import Verif.Props.Arriving
import Verif.Props.DesignDecoding

/-! The orientation of the listener in `binauralize`: C169. -/

namespace Verif.Props
open Decoder Utils Matrix Real Sig Sph

/-- The coordinates of a point for a listener who has turned by `φ` to the left. -/
noncomputable def turnHead (φ : ℝ) (v : Vec3) : Vec3 := ![cos φ * v 0 + sin φ * v 1, -sin φ * v 0 + cos φ * v 1, v 2]

/-- The coordinates of a point for a listener who looks down by `θ` (the zenith angle of the view grows). -/
noncomputable def tiltHead (θ : ℝ) (v : Vec3) : Vec3 := ![cos θ * v 0 - sin θ * v 2, v 1, sin θ * v 0 + cos θ * v 2]

theorem nearest_dir (hr : HRIRs) {a z a' z' : ℝ} (h : dirVec a z = dirVec a' z') : hr.nearestHrirs a z = hr.nearestHrirs a' z' := by
  have e0 := congrFun h 0
  have e1 := congrFun h 1
  have e2 := congrFun h 2
  simp only [dirVec, Matrix.cons_val_zero, Matrix.cons_val_one, Matrix.cons_val] at e0 e1 e2
  have : sph2cart a z = sph2cart a' z' := by
    unfold sph2cart
    simp only [one_mul, e0, e1, e2]
  unfold HRIRs.nearestHrirs HRIRs.nearestOne
  rw [this]

theorem dir_turn (φ a z : ℝ) : dirVec (a - φ) z = turnHead φ (dirVec a z) := by
  funext c
  fin_cases c <;> simp [dirVec, turnHead, cos_sub, sin_sub] <;> ring

theorem turn_norm3 (φ : ℝ) (v : Vec3) : norm3 (turnHead φ v) = norm3 v := by
  unfold norm3
  congr 1
  simp only [dotProduct, Fin.sum_univ_three, turnHead]
  simp
  have := sin_sq_add_cos_sq φ
  linear_combination (v 0 ^ 2 + v 1 ^ 2) * this

theorem turn_smul (φ c : ℝ) (v : Vec3) : turnHead φ (c • v) = c • turnHead φ v := by
  funext i
  fin_cases i <;> simp [turnHead] <;> ring

theorem tilt_norm3 (θ : ℝ) (v : Vec3) : norm3 (tiltHead θ v) = norm3 v := by
  unfold norm3
  congr 1
  simp only [dotProduct, Fin.sum_univ_three, tiltHead]
  simp
  have := sin_sq_add_cos_sq θ
  linear_combination (v 0 ^ 2 + v 2 ^ 2) * this

theorem tilt_smul (φ c : ℝ) (v : Vec3) : tiltHead φ (c • v) = c • tiltHead φ v := by
  funext i
  fin_cases i <;> simp [tiltHead] <;> ring

theorem norm3_zero_iff {v : Vec3} : norm3 v = 0 ↔ v = 0 := by
  constructor
  · intro h
    by_contra h0
    exact (norm3_pos h0).ne' h
  · rintro rfl; simp [norm3]

theorem dir_unit (v : Vec3) (hv : v ≠ 0) : dirVec (dirOf v).1 (dirOf v).2 = (norm3 v)⁻¹ • v := by
  rw [dirVec_dirOf v hv]
  funext c
  simp [div_eq_inv_mul]

/-- Two setups render alike if at every loudspeaker the distance agrees and the direction asked for does. -/
theorem binauralize_congr {L R S : ℕ} {h h' : Hull L} (ha : h'.a = h.a) {o o' : ℝ × ℝ}
    (hd : ∀ l, norm3 (h'.points l - h'.listener) = norm3 (h.points l - h.listener))
    (hdir : ∀ l, dirVec ((dirOf (h.points l - h.listener)).1 - o.1) ((dirOf (h.points l - h.listener)).2 - o.2) = dirVec ((dirOf (h'.points l - h'.listener)).1 - o'.1) ((dirOf (h'.points l - h'.listener)).2 - o'.2))
    (ls : Matrix (Fin R) (Fin S) ℝ) (fs : ℝ) (hr : HRIRs) : binauralize h ls fs o hr = binauralize h' ls fs o' hr := by
  unfold binauralize
  split_ifs with h1 h2 h3
  · rfl
  · rfl
  · dsimp only
    congr 1
    funext acc l
    have e1 : ∀ hl, attenuated h' ls l hl = attenuated h ls l hl := by
      intro hl
      unfold attenuated
      simp only [radius_norm3, hd l, ha]
    rw [e1]
    unfold binauralStep
    have := nearest_dir hr (hdir l)
    unfold dirOf at this
    simp only at this ⊢
    rw [this]
  · rfl

/-- **C169**, where it holds: an azimuth offset is a turn of the head. `binauralize` with the orientation `(φ + ψ, 0)` is `binauralize` with the orientation `(ψ, 0)` of the loudspeakers in the coordinates of a listener turned by `φ`, so turns add up and whole turns
change nothing; a zenith offset is a tilt of the head for loudspeakers in front of or above or below the listener (azimuth zero). Missing: zenith offsets with loudspeakers elsewhere, see `C169_tilt_fails`. -/
theorem C169_orientation_partial {L R S : ℕ} (h : Hull L) (hne : ∀ l, h.points l ≠ h.listener) (ls : Matrix (Fin R) (Fin S) ℝ) (fs : ℝ) (hr : HRIRs) (h' : Hull L) (ha : h'.a = h.a) :
    (∀ φ ψ : ℝ, (∀ l, h'.points l - h'.listener = turnHead φ (h.points l - h.listener)) → binauralize h ls fs (φ + ψ, 0) hr = binauralize h' ls fs (ψ, 0) hr) ∧
    (∀ (φ θ : ℝ) (k : ℤ), binauralize h ls fs (φ + k * (2 * π), θ) hr = binauralize h ls fs (φ, θ) hr) ∧
    (∀ θ : ℝ, (∀ l, (h.points l - h.listener) 1 = 0 ∧ 0 ≤ (h.points l - h.listener) 0) → (∀ l, h'.points l - h'.listener = tiltHead θ (h.points l - h.listener)) →
      binauralize h ls fs (0, θ) hr = binauralize h' ls fs (0, 0) hr) := by
  have hv : ∀ l, h.points l - h.listener ≠ 0 := fun l => sub_ne_zero.2 (hne l)
  refine ⟨fun φ ψ hp => ?_, fun φ θ k => ?_, fun θ hm hp => ?_⟩
  · refine binauralize_congr ha (fun l => by rw [hp, turn_norm3]) (fun l => ?_) ls fs hr
    have hv' : turnHead φ (h.points l - h.listener) ≠ 0 := by
      rw [Ne, ← norm3_zero_iff, turn_norm3, norm3_zero_iff]; exact hv l
    simp only [sub_zero]
    rw [← sub_sub, dir_turn ψ, dir_turn φ, dir_unit _ (hv l), dir_turn ψ, hp, dir_unit _ hv', turn_smul φ, turn_norm3]
  · refine binauralize_congr rfl (fun l => rfl) (fun l => ?_) ls fs hr
    simp only [← sub_sub]
    unfold dirVec
    rw [cos_sub_int_mul_two_pi, sin_sub_int_mul_two_pi]
  · refine binauralize_congr ha (fun l => by rw [hp, tilt_norm3]) (fun l => ?_) ls fs hr
    have hv' : tiltHead θ (h.points l - h.listener) ≠ 0 := by
      rw [Ne, ← norm3_zero_iff, tilt_norm3, norm3_zero_iff]; exact hv l
    simp only [sub_zero]
    have haz : (dirOf (h.points l - h.listener)).1 = 0 := by
      obtain ⟨m1, m2⟩ := hm l
      show Complex.arg ⟨(h.points l - h.listener) 0, (h.points l - h.listener) 1⟩ = 0
      rw [m1]
      exact Complex.arg_ofReal_of_nonneg m2
    have hd := dir_unit _ (hv l)
    rw [hp, dir_unit _ hv', tilt_norm3, ← tilt_smul, ← hd, haz]
    funext c
    fin_cases c <;> simp [dirVec, tiltHead, cos_sub, sin_sub] <;> ring

/-- Six loudspeakers around a listener turned by one radian, and by half a turn more. -/
example (ls : Matrix (Fin 6) (Fin 8) ℝ) (hr : HRIRs) : binauralize Oct.hull ls 48000 (1 + π, 0) hr =
    binauralize { Oct.hull with points := fun l => turnHead 1 (Oct.pts l) } ls 48000 (π, 0) hr :=
  (C169_orientation_partial Oct.hull (fun l h0 => Oct.pts_ne l (by simpa [Oct.hull] using h0)) ls 48000 hr { Oct.hull with points := fun l => turnHead 1 (Oct.pts l) } rfl).1 1 π
    (fun l => by simp [Oct.hull])

/-- A column of loudspeakers in front, for a listener looking down. -/
example (ls : Matrix (Fin 6) (Fin 8) ℝ) (hr : HRIRs) : binauralize { Oct.hull with points := fun l => ![1, 0, ((l : ℕ) : ℝ)] } ls 48000 (0, 1) hr =
    binauralize { Oct.hull with points := fun l => tiltHead 1 ![1, 0, ((l : ℕ) : ℝ)] } ls 48000 (0, 0) hr :=
  (C169_orientation_partial { Oct.hull with points := fun l => ![1, 0, ((l : ℕ) : ℝ)] } (fun l h0 => by simpa [Oct.hull] using congrFun h0 0) ls 48000 hr
    { Oct.hull with points := fun l => tiltHead 1 ![1, 0, ((l : ℕ) : ℝ)] } rfl).2.2 1 (fun l => by simp [Oct.hull]) (fun l => by simp [Oct.hull])

/-- A set of measurements at the vertices of the octahedron that tells the directions apart. -/
noncomputable def sixHrirs : HRIRs where
  left := { cols := 1, rows := [[1], [2], [3], [4], [5], [6]] }
  right := { cols := 1, rows := [[1], [2], [3], [4], [5], [6]] }
  azi := [0, π, π / 2, -(π / 2), 0, 0]
  zen := [π / 2, π / 2, π / 2, π / 2, 0, π]
  fs := 48000
  numGrid := 6
  numSamples := 1

theorem sixHrirs_consistent : sixHrirs.Consistent := by
  refine ⟨rfl, rfl, rfl, rfl, ?_, ?_, rfl, rfl⟩ <;>
  · intro r hr
    simp [sixHrirs] at hr ⊢
    rcases hr with rfl | rfl | rfl | rfl | rfl | rfl <;> rfl

theorem six_dirs (l : Fin 6) : ∃ a z : ℝ, sixHrirs.azi[(l : ℕ)]? = some a ∧ sixHrirs.zen[(l : ℕ)]? = some z ∧ dirVec a z = Oct.pts l := by
  fin_cases l
  all_goals
    refine ⟨_, _, rfl, rfl, ?_⟩
    funext c
    fin_cases c <;> simp [dirVec, Oct.pts]

theorem six_lt {a z : ℝ} {i : ℕ} (h : IsNearest sixHrirs.azi sixHrirs.zen a z i) : i < 6 := by
  obtain ⟨ga, -, h1, -⟩ := h
  exact (List.getElem?_eq_some_iff.1 h1).1

/-- The nearest measurement lies on the same side as the direction. -/
theorem six_positive {a z : ℝ} {i : ℕ} (h : IsNearest sixHrirs.azi sixHrirs.zen a z i) : ∃ hi : i < 6, 0 < dirVec a z ⬝ᵥ Oct.pts ⟨i, hi⟩ := by
  have hi := six_lt h
  refine ⟨hi, ?_⟩
  obtain ⟨ga, gz, h1, h2, h3⟩ := h
  obtain ⟨a1, z1, g1, g2, g3⟩ := six_dirs ⟨i, hi⟩
  simp only at g1 g2
  obtain rfl : ga = a1 := by rw [h1] at g1; exact Option.some.inj g1
  obtain rfl : gz = z1 := by rw [h2] at g2; exact Option.some.inj g2
  by_contra hneg
  have hall : ∀ l : Fin 6, dirVec a z ⬝ᵥ Oct.pts l ≤ 0 := by
    intro l
    obtain ⟨b, w, k1, k2, k3⟩ := six_dirs l
    have hle := (h3 l b w k1 k2).1
    rw [← k3]
    by_contra hp
    have : haversine a z b w < haversine a z ga gz := by
      rw [haversine_arccos, haversine_arccos, g3]
      calc arccos (dirVec a z ⬝ᵥ dirVec b w) < π / 2 := arccos_lt_pi_div_two.2 (not_le.1 hp)
        _ ≤ _ := not_lt.1 fun hlt => hneg (arccos_lt_pi_div_two.1 hlt)
    linarith
  have hz : dirVec a z = 0 := by
    have t0 := hall 0
    have t1 := hall 1
    have t2 := hall 2
    have t3 := hall 3
    have t4 := hall 4
    have t5 := hall 5
    simp [Oct.pts, dotProduct, Fin.sum_univ_three] at t0 t1 t2 t3 t4 t5
    funext c
    fin_cases c
    · exact le_antisymm t0 t1
    · exact le_antisymm t2 t3
    · exact le_antisymm t4 t5
  exact dirVec_ne_zero a z hz

theorem nearest_unique {azi zen : List ℝ} {a z a' z' : ℝ} {i j : ℕ} (hd : dirVec a z = dirVec a' z') (h : IsNearest azi zen a z i) (h' : IsNearest azi zen a' z' j) : i = j := by
  obtain ⟨ga, gz, h1, h2, h3⟩ := h
  obtain ⟨gb, gw, k1, k2, k3⟩ := h'
  have e : ∀ b w, haversine a' z' b w = haversine a z b w := fun b w => by rw [haversine_arccos, haversine_arccos, hd]
  rcases lt_trichotomy i j with hl | hl | hl
  · have x1 := (h3 j gb gw k1 k2).1
    have x2 := (k3 i ga gz h1 h2).2 hl
    rw [e, e] at x2
    linarith
  · exact hl
  · have x1 := (h3 j gb gw k1 k2).2 hl
    have x2 := (k3 i ga gz h1 h2).1
    rw [e, e] at x2
    linarith

theorem six_row {i : ℕ} (hi : i < 6) : (sixHrirs.left.rows.getD i []).getD 0 0 = (i : ℝ) + 1 := by
  simp only [sixHrirs]
  interval_cases i <;> norm_num

/-- One click on loudspeaker `k` at distance one is heard as the response chosen for it. -/
theorem click_heard {h : Hull 6} {o : ℝ × ℝ} {idx : Fin 6 → ℕ} (hd : ∀ l, norm3 (h.points l - h.listener) = 1)
    (hidx : ∀ k, idx k < 6) (hb : ∀ ls : Matrix (Fin 6) (Fin 1) ℝ, ∃ l r : List ℝ, binauralize h ls sixHrirs.fs o sixHrirs = .ok (l, r) ∧
      l.length = 1 + sixHrirs.numSamples - 1 ∧ r.length = 1 + sixHrirs.numSamples - 1 ∧ ∀ n < 1 + sixHrirs.numSamples - 1,
        l.getD n 0 = (∑ k, if ∃ s, |ls k s / norm3 (h.points k - h.listener) ^ h.a| > 10e-6 then
          ∑ s : Fin 1, (if (s : ℕ) ≤ n then ls k s / norm3 (h.points k - h.listener) ^ h.a * (sixHrirs.left.rows.getD (idx k) []).getD (n - s) 0 else 0) else 0) ∧
        r.getD n 0 = (∑ k, if ∃ s, |ls k s / norm3 (h.points k - h.listener) ^ h.a| > 10e-6 then
          ∑ s : Fin 1, (if (s : ℕ) ≤ n then ls k s / norm3 (h.points k - h.listener) ^ h.a * (sixHrirs.right.rows.getD (idx k) []).getD (n - s) 0 else 0) else 0))
    (k : Fin 6) : ∃ l r : List ℝ, binauralize h (Matrix.of fun j _ => if j = k then (1 : ℝ) else 0 : Matrix (Fin 6) (Fin 1) ℝ) sixHrirs.fs o sixHrirs = .ok (l, r) ∧ l.getD 0 0 = (idx k : ℝ) + 1 := by
  classical
  obtain ⟨l, r, h1, -, -, h4⟩ := hb (Matrix.of fun j _ => if j = k then (1 : ℝ) else 0)
  refine ⟨l, r, h1, ?_⟩
  rw [(h4 0 (by simp [sixHrirs])).1, Finset.sum_eq_single k]
  · simp only [hd, one_rpow, one_pow, Matrix.of_apply, if_true, div_one, Fin.sum_univ_one]
    rw [if_pos ⟨0, by norm_num⟩]
    simp only [Fin.val_zero, le_refl, if_true, one_mul, Nat.sub_zero]
    exact six_row (hidx k)
  · intro j _ hj
    rw [if_neg]
    rintro ⟨s, hs⟩
    simp [hj] at hs
    norm_num at hs
  · simp

theorem oct_front_back : dirVec ((dirOf (Oct.pts 0)).1 - 0) ((dirOf (Oct.pts 0)).2 - π / 2) = dirVec ((dirOf (Oct.pts 1)).1 - 0) ((dirOf (Oct.pts 1)).2 - π / 2) := by
  have : ∀ l : Fin 6, Oct.pts l 2 = 0 → (dirOf (Oct.pts l)).2 = π / 2 := by
    intro l hl
    simp [dirOf, cart2sph, hl]
  rw [this 0 (by simp [Oct.pts]), this 1 (by simp [Oct.pts])]
  simp [dirVec]

/-- **C169** is false of zenith offsets with loudspeakers around the listener: looking up or down by a right angle renders the loudspeaker in front and the one behind from the same direction, which no turn, tilt or reflection `Q` of the head does. -/
theorem C169_tilt_fails : sixHrirs.Consistent ∧ ∀ (Q : Mat3) (h' : Hull 6), Q.transpose * Q = 1 → (∀ l, h'.points l - h'.listener = Q.mulVec (Oct.hull.points l - Oct.hull.listener)) →
    ∃ ls : Matrix (Fin 6) (Fin 1) ℝ, binauralize Oct.hull ls sixHrirs.fs (0, π / 2) sixHrirs ≠ binauralize h' ls sixHrirs.fs (0, 0) sixHrirs := by
  refine ⟨sixHrirs_consistent, fun Q h' hQ hp => ?_⟩
  by_contra hall
  push Not at hall
  have rel : ∀ l, Oct.hull.points l - Oct.hull.listener = Oct.pts l := fun l => by simp [Oct.hull]
  simp only [rel] at hp
  have hne : sixHrirs.azi ≠ [] := by simp [sixHrirs]
  obtain ⟨idx, n1, b1⟩ := binauralize_uniform (S := 1) Oct.hull (0, π / 2) sixHrirs sixHrirs_consistent hne le_rfl le_rfl
  obtain ⟨idx', n2, b2⟩ := binauralize_uniform (S := 1) h' (0, 0) sixHrirs sixHrirs_consistent hne le_rfl le_rfl
  have same : ∀ k, idx k = idx' k := by
    intro k
    obtain ⟨l, r, e1, e2⟩ := click_heard (fun l => by rw [rel, Oct.norm_pts]) (fun k => six_lt (n1 k)) b1 k
    obtain ⟨l', r', e3, e4⟩ := click_heard (fun l => by rw [hp, turn_norm hQ, Oct.norm_pts]) (fun k => six_lt (n2 k)) b2 k
    rw [hall, e3] at e1
    injection e1 with e1
    injection e1 with e5 e6
    rw [← e5, e4] at e2
    exact_mod_cast (add_right_cancel e2).symm
  have f0 := n1 0
  have f1 := n1 1
  simp only [rel] at f0 f1
  have h01 := nearest_unique oct_front_back f0 f1
  have p0 := n2 0
  have p1 := n2 1
  simp only [hp, sub_zero] at p0 p1
  rw [← same, ← h01, same] at p1
  obtain ⟨hi, q0⟩ := six_positive p0
  obtain ⟨_, q1⟩ := six_positive p1
  have nz : ∀ l, Q.mulVec (Oct.pts l) ≠ 0 := by
    intro l
    rw [Ne, ← norm3_zero_iff, turn_norm hQ, Oct.norm_pts]
    norm_num
  have d0 := dir_unit _ (nz 0)
  have d1 := dir_unit _ (nz 1)
  rw [turn_norm hQ, Oct.norm_pts, inv_one, one_smul] at d0 d1
  have hop : Oct.pts 1 = -Oct.pts 0 := by
    funext c
    fin_cases c <;> simp [Oct.pts]
  have hq : Q.mulVec (Oct.pts 1) = -Q.mulVec (Oct.pts 0) := by rw [hop, Matrix.mulVec_neg]
  unfold dirOf at d0 d1
  simp only at d0 d1
  rw [d0] at q0
  rw [d1, hq, neg_dotProduct] at q1
  linarith

end Verif.Props
