import Verif.Props.Sharpest
import Verif.Props.VbipEnergy

/-! VBIP compared with all other ways to distribute the energy of a source over the loudspeakers: C172. -/

namespace Verif.Props
open Real Verif.Sph Verif.Utils Verif.Decoder

theorem rE_parts {L : ℕ} {dirs : Fin L → Vec3} {x : Fin L → ℝ} {u : Vec3} {e : ℝ} (h : rE dirs x = (some u, e)) :
    0 < ∑ l, x l ^ 2 ∧ ∑ l, x l ^ 2 • dirs l = (∑ l, x l ^ 2) • u := by
  unfold rE at h
  have h1 := (Prod.mk.inj h).1
  by_cases h0 : ∑ q, x q ^ 2 = 0
  · simp [h0] at h1
  · simp only [if_neg h0, Option.some.injEq] at h1
    refine ⟨lt_of_le_of_ne (Finset.sum_nonneg fun _ _ => sq_nonneg _) (Ne.symm h0), ?_⟩
    funext c
    have := congrFun h1 c
    simp only [Finset.sum_apply, Pi.smul_apply, smul_eq_mul]
    rw [← this]
    field_simp

/-- **C172** With loudspeakers at equal distances around the listener, the gains of `vbip` have the longest energy vector of all gains, positive or negative and on any of the loudspeakers, whose energy vector points at the source. If the plane of no face contains further
loudspeakers, all others with an energy vector of that length distribute the energy in the same way. -/
theorem C172_sharpest_energy {L : ℕ} (lstsq : Mat3 → Mat3) (hl : LstsqSpec lstsq) {p : ℝ} (hp : 0 < p)
    (qhull : (L : ℕ) → (Fin L → Vec3) → Py (List (Face L))) (points : Fin L → Vec3) (listener : Vec3) (h : Hull L) (hh : mkHull qhull points listener = .ok h) {r : ℝ} (hr : 0 < r)
    (hd : ∀ l, norm3 (points l - listener) = r) (hhull : IsConvexHull h.points h.simplices) (hv : ∀ f ∈ h.valid, f ∈ h.simplices)
    (hin : (0 : Vec3) ∈ interior (convexHull ℝ (Set.range h.points))) (s : Vec3) (hs : s ≠ 0) (hc : CleanlyInside h s) :
    ∃ g : Fin L → ℝ, (vbip lstsq p [s] none false { h with ambi := none, kernel := none }).1 = .ok [List.ofFn g] ∧
      ((g = 0 ∧ ∀ f ∈ h.valid, ¬ Inside 2 h.points f s) ∨ ∃ (v : Vec3) (k : ℝ), rE (dirTo points listener) g = (some v, norm3 v) ∧ v = k • s ∧ 0 < k ∧
        ∀ (x : Fin L → ℝ) (u : Vec3) (k' : ℝ), rE (dirTo points listener) x = (some u, norm3 u) → u = k' • s → 0 < k' → norm3 u ≤ norm3 v ∧
          ((∀ f ∈ h.simplices, ∀ (n : Vec3) (β : ℝ), n ≠ 0 → (∀ i, n ⬝ᵥ h.points (f i) = β) → ∀ l, n ⬝ᵥ h.points l = β → ∃ i, f i = l) →
            norm3 u = norm3 v → ∃ t : ℝ, 0 < t ∧ ∀ l, x l ^ 2 = t * g l ^ 2)) := by
  have hne : ∀ l, points l ≠ listener := fun l h0 => by
    have := hd l
    rw [h0, sub_self] at this
    simp [norm3] at this
    exact hr.ne this
  have hli := fun f hf => hull_li hhull hin f (hv f hf)
  have hinj : ∀ f ∈ h.valid, Function.Injective f := fun f hf a b hab => (hli f hf).injective (by simp only [hab])
  obtain ⟨m1, m2, m3, m4, m5⟩ := made_fields hh
  have hcache : CacheOk lstsq h := by intro b hb; rw [m4] at hb; cases hb
  obtain ⟨g, h1, -, h2⟩ := C167_energy_vector lstsq hl hp qhull points listener h hh hne hinj hli s hc
  refine ⟨g, h1, h2.imp_right ?_⟩
  rintro ⟨-, v, k, e1, e2, e3, -⟩
  refine ⟨v, k, e1, e2, e3, fun x u k' x1 x2 x3 => ?_⟩
  -- the face
  obtain ⟨f, hf, hsup⟩ : ∃ f ∈ h.valid, ∀ l, g l ≠ 0 → ∃ i, f i = l := by
    obtain ⟨rows, v1, v2, v3⟩ := C29_vbap lstsq hl (p := 2) two_pos h hcache hinj [s]
    obtain ⟨row, rfl⟩ := List.length_eq_one_iff.1 v2
    have hvb : (vbap lstsq 2 [s] none false { h with ambi := none, kernel := none }).1 = .ok [List.ofFn row] := by
      unfold vbap
      simp only [Bool.false_eq_true, if_false]
      rw [v1]; rfl
    have hout := (C34_vbip lstsq p [s] none false { h with ambi := none, kernel := none }).2 _ hvb
    rw [h1] at hout
    have hrow : List.ofFn g = vbipRow p (List.ofFn row) := by simpa using hout
    obtain ⟨r1, -, -, -, c, hc0, r5⟩ := C34_row hp (List.ofFn row)
    rw [← hrow] at r1
    have hg2 : ∀ l : Fin L, g l ^ 2 = c * max (row l) 0 := by
      intro l
      have := r5 l (by rw [← hrow, List.length_ofFn]; exact l.2) (by rw [List.length_ofFn]; exact l.2)
      simp only [← hrow, List.getElem_ofFn] at this
      exact this
    obtain ⟨g', w1, w2⟩ := v3 0 s row rfl rfl
    have hrg : ∀ l, g l ≠ 0 → g' l ≠ 0 := by
      intro l hl0 h0
      have := hg2 l
      rw [w1] at this
      simp only [h0, mul_zero, max_self] at this
      exact hl0 (pow_eq_zero_iff two_ne_zero |>.1 this)
    rcases w2 with rfl | ⟨f, hf, hren⟩
    · exfalso
      have := (rE_parts e1).1
      rw [Finset.sum_eq_zero fun l _ => by
        by_contra h0
        exact hrg l (fun hz => h0 (by rw [hz]; norm_num)) rfl] at this
      exact lt_irrefl _ this
    · exact ⟨f, hf, fun l hl0 => hren.support l (hrg l hl0)⟩
  obtain ⟨gE, gV⟩ := rE_parts e1
  obtain ⟨xE, xV⟩ := rE_parts x1
  have hdir : ∀ y : Fin L → ℝ, ∑ l, y l • h.points l = r • ∑ l, y l • dirTo points listener l := by
    intro y
    rw [Finset.smul_sum]
    refine Finset.sum_congr rfl fun l _ => ?_
    unfold dirTo distTo
    rw [hd l, smul_smul, smul_smul, m1]
    congr 1
    field_simp
  obtain ⟨Eg, hEg⟩ : ∃ E, E = ∑ l, g l ^ 2 := ⟨_, rfl⟩
  obtain ⟨Ex, hEx⟩ : ∃ E, E = ∑ l, x l ^ 2 := ⟨_, rfl⟩
  rw [← hEg] at gE gV
  rw [← hEx] at xE xV
  have sums : ∀ (t : ℝ) (y : Fin L → ℝ), ∑ l, t * y l = t * ∑ l, y l := fun t y => by rw [Finset.mul_sum]
  have vecs : ∀ (t : ℝ) (y : Fin L → ℝ), ∑ l, (t * y l) • h.points l = t • ∑ l, y l • h.points l := fun t y => by
    rw [Finset.smul_sum]
    exact Finset.sum_congr rfl fun l _ => mul_smul _ _ _
  have key := face_least hhull hin f (hv f hf) (fun l => (k' * Ex) * g l ^ 2) (fun l => (k * Eg) * x l ^ 2)
    (fun l hl => hsup l fun h0 => hl (by rw [h0]; ring)) (fun l => by positivity)
    (by
      rw [vecs, vecs, hdir, hdir, gV, xV, e2, x2]
      simp only [smul_smul]
      congr 1
      ring)
  rw [sums, sums, ← hEg, ← hEx] at key
  have hkk : k' * Ex * Eg = Ex * Eg * k' := by ring
  have hns : 0 < norm3 s := norm3_pos hs
  rw [e2, x2, norm3_smul, norm3_smul, abs_of_pos e3, abs_of_pos x3]
  constructor
  · refine mul_le_mul_of_nonneg_right ?_ hns.le
    have h3 : Ex * Eg * k' ≤ Ex * Eg * k := by linarith [key.1]
    exact le_of_mul_le_mul_left h3 (by positivity)
  · intro hgen heq
    have hk : k' = k := mul_right_cancel₀ hns.ne' heq
    have h3 := key.2 (hgen f (hv f hf)) (by rw [hk]; ring)
    refine ⟨Ex / Eg, by positivity, fun l => ?_⟩
    have h4 : k' * Ex * g l ^ 2 = k * Eg * x l ^ 2 := congrFun h3 l
    rw [hk] at h4
    have h5 : Ex * g l ^ 2 = Eg * x l ^ 2 := mul_left_cancel₀ e3.ne' (by linarith)
    field_simp
    linarith

theorem oct_clean : CleanlyInside Oct.hull ![1, 1, 1] := by
  intro f hf ⟨c, hc, hn, hpos⟩
  refine ⟨c, ?_, hc⟩
  change ∑ i, c i • Oct.pts (f i) = _ at hc
  change f ∈ Oct.faces at hf
  have hn0 : 0 < npNorm 2 c := lt_of_le_of_ne (npNorm_nonneg _ _) (Ne.symm hn)
  have hsq : ∀ i, |c i| ≤ 1 := by
    have e0 := congrFun hc 0
    have e1 := congrFun hc 1
    have e2 := congrFun hc 2
    intro i
    rw [abs_le]
    simp only [Oct.faces, List.mem_cons, List.not_mem_nil, or_false] at hf
    rcases hf with rfl | rfl | rfl | rfl | rfl | rfl | rfl | rfl <;> simp [Fin.sum_univ_three, Oct.pts] at e0 e1 e2 <;> fin_cases i <;> constructor <;> simp <;> linarith
  have hn2 : npNorm 2 c ≤ 2 := by
    unfold npNorm
    have h3 : ∑ i, |c i| ^ (2 : ℝ) ≤ 4 := by
      have h4 : ∀ i, |c i| ^ (2 : ℝ) ≤ 1 := fun i => Real.rpow_le_one (abs_nonneg _) (hsq i) (by norm_num)
      rw [Fin.sum_univ_three]
      linarith [h4 0, h4 1, h4 2]
    refine (Real.rpow_le_rpow (Finset.sum_nonneg fun i _ => Real.rpow_nonneg (abs_nonneg _) _) h3 (by norm_num)).trans ?_
    rw [← Real.sqrt_eq_rpow, show (4 : ℝ) = 2 ^ 2 by norm_num, Real.sqrt_sq (by norm_num)]
  have hlow : ∀ i, c i > -1 / 4 := by
    intro i
    have := hpos i
    rw [gt_iff_lt, lt_div_iff₀ hn0] at this
    nlinarith
  have e0 := congrFun hc 0
  have e1 := congrFun hc 1
  have e2 := congrFun hc 2
  have l0 := hlow 0
  have l1 := hlow 1
  have l2 := hlow 2
  intro i
  simp only [Oct.faces, List.mem_cons, List.not_mem_nil, or_false] at hf
  rcases hf with rfl | rfl | rfl | rfl | rfl | rfl | rfl | rfl <;> simp [Fin.sum_univ_three, Oct.pts] at e0 e1 e2 <;> fin_cases i <;> simp <;> linarith

/-- Six loudspeakers on the axes and a source in the middle of three of them: no gains, on whichever loudspeakers and with whichever signs, have an energy vector that points at the source and is longer than that of `vbip`. -/
example (lstsq : Mat3 → Mat3) (hl : LstsqSpec lstsq) : ∃ (g : Fin 6 → ℝ) (v : Vec3), (vbip lstsq 2 [![1, 1, 1]] none false { Oct.hull with ambi := none, kernel := none }).1 = .ok [List.ofFn g] ∧
    rE (dirTo Oct.pts 0) g = (some v, norm3 v) ∧ ∀ (x : Fin 6 → ℝ) (u : Vec3) (k' : ℝ), rE (dirTo Oct.pts 0) x = (some u, norm3 u) → u = k' • ![1, 1, 1] → 0 < k' →
      norm3 u ≤ norm3 v ∧ (norm3 u = norm3 v → ∃ t : ℝ, 0 < t ∧ ∀ l, x l ^ 2 = t * g l ^ 2) := by
  have hraw : Oct.faces = sortVertices Oct.rawFaces := by decide +kernel
  obtain ⟨g, h1, h2⟩ := C172_sharpest_energy lstsq hl two_pos Oct.qhull Oct.pts 0 Oct.hull Oct.mkHull_eq one_pos
    (fun l => by fin_cases l <;> simp [norm3, Oct.pts, Fin.sum_univ_three])
    (by show IsConvexHull Oct.pts Oct.faces; rw [hraw]; exact hull_sorted oct_isHull) (fun f hf => hf) (oct_interior 0 (by simp)) ![1, 1, 1]
    (fun h0 => by simpa using congrFun h0 0) oct_clean
  rcases h2 with ⟨-, h3⟩ | ⟨v, k, h3, h4, h5, h6⟩
  · refine absurd ?_ (h3 ![0, 2, 4] (by show _ ∈ Oct.faces; decide))
    have hn : 0 < npNorm 2 (![1, 1, 1] : Vec3) := lt_of_le_of_ne (npNorm_nonneg _ _) fun h0 => by
      have := congrFun ((npNorm_eq_zero two_pos _).1 h0.symm) 1
      simp at this
    refine ⟨![1, 1, 1], ?_, hn.ne', fun i => ?_⟩
    · show ∑ i, (![1, 1, 1] : Vec3) i • Oct.pts ((![0, 2, 4] : Face 6) i) = _
      rw [Fin.sum_univ_three]; funext c; fin_cases c <;> simp [Oct.pts]
    · refine lt_of_lt_of_le (by norm_num) (div_nonneg ?_ hn.le)
      fin_cases i <;> simp
  · exact ⟨g, v, h1, h3, fun x u k' e1 e2 e3 => ⟨(h6 x u k' e1 e2 e3).1, (h6 x u k' e1 e2 e3).2 oct_planes⟩⟩

end Verif.Props
