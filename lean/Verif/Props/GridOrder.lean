import Verif.Props.Renumbered
import Verif.Props.Ctf
import Verif.Props.MagLs
import Verif.Props.Bsdm
import Verif.Props.Hrirs
import Verif.Props.OneByOne
import Verif.Model.Interaural
import Verif.Model.Binaural
import Verif.Model.SphMisc
import Verif.Model.Grids

/-! The numbering of grid points does not matter: C150. -/

namespace Verif.Props

open Real Matrix Verif.Utils Verif.Decoder Verif.Sph Verif.Sig Verif.Parsa Verif.Process

/-! #### Transforms -/

theorem pinv_along {m m' n : ℕ} {A : Matrix (Fin m) (Fin n) ℝ} {P : Matrix (Fin n) (Fin m) ℝ} (h : IsPinv A P) (e : Fin m' ≃ Fin m) :
    IsPinv (A.submatrix e id) (P.submatrix id e) := by
  have pa : P.submatrix id e * A.submatrix e id = P * A := by
    rw [Matrix.submatrix_mul_equiv]; rfl
  have ap : A.submatrix e id * P.submatrix id e = (A * P).submatrix e e := by
    ext i j; rfl
  refine ⟨?_, ?_, ?_, ?_⟩
  · rw [Matrix.mul_assoc, pa]
    conv_rhs => rw [← h.apa, Matrix.mul_assoc]
    ext i j; rfl
  · rw [pa]
    conv_rhs => rw [← h.pap]
    ext i j; rfl
  · rw [ap, Matrix.transpose_submatrix, h.ap]
  · rw [pa, h.pa]

/-- **C150** `sht` (with weights and without) and `sht_lstsq`: samples given in another order, together with their directions and weights, have the same
coefficients. -/
theorem C150_transforms {Q S : ℕ} (lstsq : (K : ℕ) → Matrix (Fin Q) (Fin K) ℝ → Matrix (Fin Q) (Fin S) ℝ → Matrix (Fin K) (Fin S) ℝ)
    (hl : ∀ K A b, IsLstsq A b (lstsq K A b)) (N : ℕ) (azi zen : Fin Q → ℝ) (w : Option (Fin Q → ℝ)) (f : Matrix (Fin Q) (Fin S) ℝ) (σ : Equiv.Perm (Fin Q)) :
    sht (shMat N (azi ∘ σ) (zen ∘ σ)) (w.map (· ∘ σ)) (f.submatrix σ id) = sht (shMat N azi zen) w f ∧
    shtLstsq lstsq (f.submatrix σ id) N (azi ∘ σ) (zen ∘ σ) = shtLstsq lstsq f N azi zen := by
  refine ⟨?_, ?_⟩
  · cases w with
    | none =>
      ext k s
      simp only [sht, Option.map_none, Matrix.mul_apply]
      exact Equiv.sum_comp σ fun q => ((4 * π / Q) • shMat N azi zen).transpose k q * f q s
    | some w =>
      ext k s
      simp only [sht, Option.map_some]
      rw [Matrix.mul_apply, Matrix.mul_apply]
      simp only [Matrix.diagonal_mul]
      exact Equiv.sum_comp σ fun q => (shMat N azi zen).transpose k q * (w q * f q s)
  · have hmv : ∀ y, (shMat N (azi ∘ σ) (zen ∘ σ)).mulVec y = (shMat N azi zen).mulVec y ∘ σ := fun y => rfl
    have hsum : ∀ (s : Fin S) (y : Fin ((N + 1) ^ 2) → ℝ), ∑ q, ((shMat N (azi ∘ σ) (zen ∘ σ)).mulVec y q - f.submatrix σ id q s) ^ 2 =
        ∑ q, ((shMat N azi zen).mulVec y q - f q s) ^ 2 := by
      intro s y
      rw [hmv]
      exact Equiv.sum_comp σ fun q => ((shMat N azi zen).mulVec y q - f q s) ^ 2
    have hx := hl _ (shMat N azi zen) f
    refine lstsq_unique (hl _ _ _) ⟨fun s y => ?_, fun s y hy => ?_⟩
    · rw [hsum, hsum]; exact hx.min s y
    · rw [hsum, hsum] at hy; exact hx.least s y hy

/-- **C150** `calculate_grid_weights` returns the weights in the order of the points, and warns for the same grids. -/
theorem C150_weights {Q : ℕ} (pinv : (K : ℕ) → Matrix (Fin Q) (Fin K) ℝ → Matrix (Fin K) (Fin Q) ℝ) (hpinv : ∀ K A, IsPinv A (pinv K A)) (cond : ℕ → ℝ)
    (azi zen : Fin Q → ℝ) (order : Option ℤ) (σ : Equiv.Perm (Fin Q)) :
    Grids.calculateGridWeights cond pinv (azi ∘ σ) (zen ∘ σ) order = (Grids.calculateGridWeights cond pinv azi zen order).map fun p => (p.1 ∘ σ, p.2) := by
  unfold Grids.calculateGridWeights
  split
  · rfl
  · rename_i o _
    split
    · have hP : pinv _ (shMat o.toNat (azi ∘ σ) (zen ∘ σ)) = (pinv _ (shMat o.toNat azi zen)).submatrix id σ :=
        pinv_unique (hpinv _ _) (pinv_along (hpinv _ (shMat o.toNat azi zen)) σ)
      unfold Grids.gridWeights
      simp only [hP, Except.map, Except.ok.injEq, Prod.mk.injEq]
      refine ⟨rfl, ?_⟩
      congr 1
      rw [eq_iff_iff]
      have hs : ∑ q, √(4 * π) * (pinv _ (shMat o.toNat azi zen)).submatrix id σ ⟨0, sq_pos' _⟩ q = ∑ q, √(4 * π) * pinv _ (shMat o.toNat azi zen) ⟨0, sq_pos' _⟩ q :=
        Equiv.sum_comp σ fun q => √(4 * π) * pinv _ (shMat o.toNat azi zen) ⟨0, sq_pos' _⟩ q
      rw [hs]
      exact or_congr_right ⟨fun ⟨q, hq⟩ => ⟨σ q, hq⟩, fun ⟨q, hq⟩ => ⟨σ.symm q, by simpa using hq⟩⟩
    · rfl

/-- **C150** `check_cond_sht` returns the same and reports the same, for real and complex harmonics. -/
theorem C150_cond {Q : ℕ} (cond : {n : ℕ} → Matrix (Fin n) (Fin n) ℝ → Option ℝ) (condC : {n : ℕ} → Matrix (Fin n) (Fin n) ℂ → Option ℝ) (N : ℕ) (azi zen : Fin Q → ℝ)
    (lim : Option ℝ) (σ : Equiv.Perm (Fin Q)) :
    checkCondSht cond N (azi ∘ σ) (zen ∘ σ) lim = checkCondSht cond N azi zen lim ∧ checkCondShtC condC N (azi ∘ σ) (zen ∘ σ) lim = checkCondShtC condC N azi zen lim := by
  have h1 : (shMat N (azi ∘ σ) (zen ∘ σ)).transpose * shMat N (azi ∘ σ) (zen ∘ σ) = (shMat N azi zen).transpose * shMat N azi zen := by
    ext i j
    exact Equiv.sum_comp σ fun q => (shMat N azi zen).transpose i q * shMat N azi zen q j
  have h2 : ((shMatC N (azi ∘ σ) (zen ∘ σ)).map (starRingEnd ℂ)).transpose * shMatC N (azi ∘ σ) (zen ∘ σ) = ((shMatC N azi zen).map (starRingEnd ℂ)).transpose * shMatC N azi zen := by
    ext i j
    exact Equiv.sum_comp σ fun q => ((shMatC N azi zen).map (starRingEnd ℂ)).transpose i q * shMatC N azi zen q j
  unfold checkCondSht checkCondShtC
  simp only [h1, h2, and_self]

/-! #### Head-related impulse responses -/

theorem mapM_congr_mem {α β : Type} (f g : α → Py β) (l : List α) (h : ∀ x ∈ l, f x = g x) : l.mapM f = l.mapM g := by
  induction l with
  | nil => rfl
  | cons a l ih => rw [List.mapM_cons, List.mapM_cons, h a (by simp), ih fun x hx => h x (by simp [hx])]

theorem getD_reordered {α : Type} {G : ℕ} (σ : Equiv.Perm (Fin G)) (l : List α) (d : α) (g : Fin G) : (List.ofFn fun g : Fin G => l.getD (σ g) d).getD (g : ℕ) d = l.getD (σ g) d := by
  rw [List.getD_eq_getElem _ _ (by simp)]; simp

/-- All grid points nearest to a direction have the same responses (in particular if there is only one). -/
def UniqueNearest (h : HRIRs) (a z : ℝ) : Prop :=
  ∀ i j, i < h.azi.length → j < h.azi.length →
    (∀ k < h.azi.length, haversine a z (h.azi.getD i 0) (h.zen.getD i 0) ≤ haversine a z (h.azi.getD k 0) (h.zen.getD k 0)) →
    (∀ k < h.azi.length, haversine a z (h.azi.getD j 0) (h.zen.getD j 0) ≤ haversine a z (h.azi.getD k 0) (h.zen.getD k 0)) →
    h.left.rows.getD i [] = h.left.rows.getD j [] ∧ h.right.rows.getD i [] = h.right.rows.getD j []

theorem getElem?_getD {α : Type} {l : List α} {i : ℕ} {x d : α} (h : l[i]? = some x) : i < l.length ∧ l.getD i d = x := by
  obtain ⟨h1, h2⟩ := List.getElem?_eq_some_iff.1 h
  exact ⟨h1, by rw [List.getD_eq_getElem _ _ h1, h2]⟩

theorem reorder_grid (h : HRIRs) (hg : h.Grid) (σ : Equiv.Perm (Fin h.azi.length)) : (reorder σ h).Grid := by
  refine ⟨by simp [reorder], ?_, by simp [reorder], by simp [reorder]⟩
  intro hn
  have := congrArg List.length hn
  simp [reorder] at this
  exact hg.2.1 this

/-- **C150** `nearest_hrirs`: for a direction whose nearest points have the same responses, the responses do not depend on the numbering. -/
theorem C150_nearest_partial (h : HRIRs) (hg : h.Grid) (σ : Equiv.Perm (Fin h.azi.length)) (a z : ℝ) (hu : UniqueNearest h a z) :
    (reorder σ h).nearestHrirs a z = h.nearestHrirs a z := by
  obtain ⟨i, l, r, e, ⟨ga, gz, n1, n2, n3⟩, e1, e2⟩ := C51_rows h hg a z
  obtain ⟨j, l', r', e', ⟨ga', gz', m1, m2, m3⟩, e1', e2'⟩ := C51_rows _ (reorder_grid h hg σ) a z
  have hlen : (reorder σ h).azi.length = h.azi.length := by simp [reorder]
  have hj : j < h.azi.length := by rw [← hlen]; exact (getElem?_getD (d := 0) m1).1
  have hi : i < h.azi.length := (getElem?_getD (d := 0) n1).1
  have hz : h.zen.length = h.azi.length := hg.1.symm
  have some_of : ∀ k, k < h.azi.length → h.azi[k]? = some (h.azi.getD k 0) ∧ h.zen[k]? = some (h.zen.getD k 0) := fun k hk =>
    ⟨by rw [List.getElem?_eq_getElem hk, List.getD_eq_getElem _ _ hk], by rw [List.getElem?_eq_getElem (hz ▸ hk), List.getD_eq_getElem _ _ (hz ▸ hk)]⟩
  have some_of' : ∀ k : Fin h.azi.length, (reorder σ h).azi[(k : ℕ)]? = some (h.azi.getD (σ k) 0) ∧ (reorder σ h).zen[(k : ℕ)]? = some (h.zen.getD (σ k) 0) := fun k =>
    ⟨by simp [reorder], by simp [reorder]⟩
  have hmin : ∀ k < h.azi.length, haversine a z (h.azi.getD i 0) (h.zen.getD i 0) ≤ haversine a z (h.azi.getD k 0) (h.zen.getD k 0) := fun k hk => by
    rw [(getElem?_getD (d := 0) n1).2, (getElem?_getD (d := 0) n2).2]
    exact (n3 k _ _ (some_of k hk).1 (some_of k hk).2).1
  have hσj : ga' = h.azi.getD (σ ⟨j, hj⟩) 0 ∧ gz' = h.zen.getD (σ ⟨j, hj⟩) 0 := by
    have := some_of' ⟨j, hj⟩
    rw [m1, m2] at this
    exact ⟨Option.some.inj this.1, Option.some.inj this.2⟩
  have hmin' : ∀ k < h.azi.length, haversine a z (h.azi.getD (σ ⟨j, hj⟩) 0) (h.zen.getD (σ ⟨j, hj⟩) 0) ≤ haversine a z (h.azi.getD k 0) (h.zen.getD k 0) := fun k hk => by
    rw [← hσj.1, ← hσj.2]
    have := (m3 (σ.symm ⟨k, hk⟩) _ _ (some_of' _).1 (some_of' _).2).1
    rwa [Equiv.apply_symm_apply] at this
  obtain ⟨u1, u2⟩ := hu i (σ ⟨j, hj⟩) hi (σ ⟨j, hj⟩).2 hmin hmin'
  rw [e, e']
  have q1 : l' = h.left.rows.getD (σ ⟨j, hj⟩) [] := by
    rw [← (getElem?_getD (d := []) e1').2]; exact getD_reordered σ h.left.rows [] ⟨j, hj⟩
  have q2 : r' = h.right.rows.getD (σ ⟨j, hj⟩) [] := by
    rw [← (getElem?_getD (d := []) e2').2]; exact getD_reordered σ h.right.rows [] ⟨j, hj⟩
  rw [q1, q2, ← u1, ← u2, (getElem?_getD e1).2, (getElem?_getD e2).2]

/-- **C150** fails for directions equally near to two grid points: the one listed first is used. -/
theorem C150_tie_fails : ∃ (h : HRIRs) (σ : Equiv.Perm (Fin h.azi.length)), h.Grid ∧ (reorder σ h).nearestHrirs 0 0 ≠ h.nearestHrirs 0 0 := by
  refine ⟨twoHrirs, (Equiv.swap (0 : Fin 2) 1 : Equiv.Perm (Fin 2)), twoHrirs_grid, ?_⟩
  change (reorder (G := 2) (Equiv.swap (0 : Fin 2) 1) twoHrirs).nearestHrirs 0 0 ≠ _
  have hd : ∀ a : ℝ, dot3 (sph2cart 0 0) (sph2cart a (π / 2)) = 0 := by intro a; simp [dot3, sph2cart]
  have h1 : twoHrirs.nearestOne 0 0 = .ok 0 := by
    simp only [HRIRs.nearestOne, twoHrirs, List.zipWith_cons_cons, List.zipWith_nil_right, hd]
    simp [npArgmax, argmaxAux]
  have h2 : (reorder (Equiv.swap (0 : Fin 2) 1 : Equiv.Perm (Fin 2)) twoHrirs).nearestOne 0 0 = .ok 0 := by
    have e1 : (reorder (Equiv.swap (0 : Fin 2) 1 : Equiv.Perm (Fin 2)) twoHrirs).azi = [π / 2, 0] := by simp [reorder, twoHrirs]
    have e2 : (reorder (Equiv.swap (0 : Fin 2) 1 : Equiv.Perm (Fin 2)) twoHrirs).zen = [π / 2, π / 2] := by simp [reorder, twoHrirs]
    simp only [HRIRs.nearestOne, e1, e2, List.zipWith_cons_cons, List.zipWith_nil_right, hd]
    simp [npArgmax, argmaxAux]
  unfold HRIRs.nearestHrirs
  rw [h1, h2]
  intro hc
  change (reorder (Equiv.swap (0 : Fin 2) 1 : Equiv.Perm (Fin 2)) twoHrirs).getItem 0 = twoHrirs.getItem 0 at hc
  have e3 : (reorder (Equiv.swap (0 : Fin 2) 1 : Equiv.Perm (Fin 2)) twoHrirs).getItem 0 = .ok ([0.5, 0], [0, 0.25]) := by
    simp [HRIRs.getItem, reorder, twoHrirs]
  have e4 : twoHrirs.getItem 0 = .ok ([1, 0], [1, 0]) := by simp [HRIRs.getItem, twoHrirs]
  rw [e3, e4] at hc
  norm_num at hc

/-- **C150** `ilds_from_hrirs` and `itds_from_hrirs` return the values in the order of the directions. -/
theorem C150_interaural (bp : BandPass) (rs : Resampler) (h : HRIRs) (hg : h.Grid) (σ : Equiv.Perm (Fin h.azi.length)) (fCut : ℝ × ℝ) (todb : Bool) (up : ℝ) :
    (∀ v, ildsFromHrirs bp h fCut todb = .ok v → ildsFromHrirs bp (reorder σ h) fCut todb = .ok (List.ofFn fun g => v.getD (σ g) .nan)) ∧
    ∀ v, itdsFromHrirs rs bp h fCut up = .ok v → itdsFromHrirs rs bp (reorder σ h) fCut up = .ok (List.ofFn fun g => v.getD (σ g) 0) := by
  have rows : ∀ l : List (List ℝ), l.length = h.azi.length → (List.ofFn fun g : Fin h.azi.length => l.getD g []) = l := fun l hl =>
    List.ext_getElem (by simp [hl]) fun i h1 h2 => by simp [h2]
  have sel : ∀ (F : List ℝ → Py (List ℝ)) (l y : List (List ℝ)), l.length = h.azi.length → l.mapM F = .ok y →
      (List.ofFn fun g => l.getD (σ g) []).mapM F = .ok (List.ofFn fun g => y.getD (σ g) []) := by
    intro F l y hl hy
    have := mapM_select F (fun g : Fin h.azi.length => l.getD g []) (by rw [rows l hl]; exact hy) (List.ofFn σ) []
    rw [List.map_ofFn, List.map_ofFn] at this
    exact this
  refine ⟨fun v hv => ?_, fun v hv => ?_⟩
  · unfold ildsFromHrirs at hv ⊢
    change ((List.ofFn fun g => h.left.rows.getD (σ g) []).mapM (bp.run h.fs fCut)).bind _ = _
    cases hL : h.left.rows.mapM (bp.run h.fs fCut) with
    | error e => rw [hL] at hv; cases hv
    | ok yl =>
      cases hR : h.right.rows.mapM (bp.run h.fs fCut) with
      | error e => rw [hL, hR] at hv; cases hv
      | ok yr =>
        rw [sel _ _ _ hg.2.2.1 hL]
        change ((List.ofFn fun g => h.right.rows.getD (σ g) []).mapM (bp.run h.fs fCut)).map _ = _
        rw [sel _ _ _ hg.2.2.2 hR]
        rw [hL, hR] at hv
        cases hv
        have l1 := mapM_length _ _ _ hL
        have l2 := mapM_length _ _ _ hR
        rw [hg.2.2.1] at l1
        rw [hg.2.2.2] at l2
        refine congrArg Except.ok (List.ext_getElem (by simp) fun i h1 h2 => ?_)
        have hi : i < h.azi.length := by simpa using h2
        simp [l1, l2, (σ ⟨i, hi⟩).2]
  · unfold itdsFromHrirs at hv ⊢
    have rowsMap : ∀ l : List (List ℝ), l.length = h.azi.length → (List.ofFn fun g : Fin h.azi.length => l.getD (σ g) []).map (rs.run h.fs (up * h.fs)) =
        List.ofFn fun g => (l.map (rs.run h.fs (up * h.fs))).getD (σ g) [] := by
      intro l hl
      rw [List.map_ofFn]
      congr 1
      funext g
      have hg' : (σ g : ℕ) < l.length := by rw [hl]; exact (σ g).2
      simp [hg']
    simp only at hv ⊢
    change (((List.ofFn fun g => h.left.rows.getD (σ g) []).map (rs.run h.fs (up * h.fs))).mapM (bp.run (up * h.fs) fCut)).bind _ = _
    rw [rowsMap _ hg.2.2.1]
    cases hL : (h.left.rows.map (rs.run h.fs (up * h.fs))).mapM (bp.run (up * h.fs) fCut) with
    | error e => rw [hL] at hv; cases hv
    | ok yl =>
      cases hR : (h.right.rows.map (rs.run h.fs (up * h.fs))).mapM (bp.run (up * h.fs) fCut) with
      | error e => rw [hL, hR] at hv; cases hv
      | ok yr =>
        rw [sel _ _ _ (by rw [List.length_map]; exact hg.2.2.1) hL]
        change (((List.ofFn fun g => h.right.rows.getD (σ g) []).map (rs.run h.fs (up * h.fs))).mapM (bp.run (up * h.fs) fCut)).bind _ = _
        rw [rowsMap _ hg.2.2.2, sel _ _ _ (by rw [List.length_map]; exact hg.2.2.2) hR]
        rw [hL, hR] at hv
        change (yl.zip yr).mapM _ = _ at hv
        change (List.zip _ _).mapM _ = _
        have l1 := mapM_length _ _ _ hL
        have l2 := mapM_length _ _ _ hR
        rw [List.length_map, hg.2.2.1] at l1
        rw [List.length_map, hg.2.2.2] at l2
        have hz : (List.ofFn fun g : Fin h.azi.length => (yl.getD g [], yr.getD g [])) = yl.zip yr := by
          refine List.ext_getElem (by simp [l1, l2]) fun i h1 h2 => ?_
          have hi : i < h.azi.length := by simpa using h1
          simp [l1, l2, hi]
        have := mapM_select (fun p : List ℝ × List ℝ => itdOf (up * h.fs) p.1 p.2) (fun g : Fin h.azi.length => (yl.getD g [], yr.getD g [])) (rows := v) (by rw [hz]; exact hv) (List.ofFn σ) 0
        rw [List.map_ofFn, List.map_ofFn] at this
        have hz' : (List.ofFn fun g : Fin h.azi.length => yl.getD (σ g) []).zip (List.ofFn fun g : Fin h.azi.length => yr.getD (σ g) []) =
            List.ofFn ((fun g : Fin h.azi.length => (yl.getD g [], yr.getD g [])) ∘ σ) := by
          refine List.ext_getElem (by simp) fun i h1 h2 => ?_
          have hi : i < h.azi.length := by simpa using h2
          simp
        rw [hz']
        exact this

/-- **C150** `hrirs_ctf` with its own grid weights does not depend on the numbering. -/
theorem C150_ctf (minPhase : List ℝ → List ℝ) (pinv : (Q K : ℕ) → Matrix (Fin Q) (Fin K) ℝ → Matrix (Fin K) (Fin Q) ℝ) (hpinv : ∀ Q K A, IsPinv A (pinv Q K A)) (h : HRIRs)
    (isMin : Bool) (lims : ℝ × ℝ) (σ : Equiv.Perm (Fin h.azi.length)) :
    hrirsCtf minPhase pinv (reorder σ h) isMin lims none = hrirsCtf minPhase pinv h isMin lims none := by
  have hlen : (reorder σ h).azi.length = h.azi.length := by simp [reorder]
  obtain ⟨e, he⟩ : ∃ e : Fin (reorder σ h).azi.length ≃ Fin h.azi.length, ∀ g, (e g) = σ (Fin.cast hlen g) := ⟨(finCongr hlen).trans σ, fun g => rfl⟩
  have ha : (fun g : Fin (reorder σ h).azi.length => (reorder σ h).azi.getD g 0) = (fun g : Fin h.azi.length => h.azi.getD g 0) ∘ e := by
    funext g
    rw [Function.comp_apply, he]
    exact getD_reordered σ h.azi 0 (Fin.cast hlen g)
  have hz : (fun g : Fin (reorder σ h).azi.length => (reorder σ h).zen.getD g 0) = (fun g : Fin h.azi.length => h.zen.getD g 0) ∘ e := by
    funext g
    rw [Function.comp_apply, he]
    exact getD_reordered σ h.zen 0 (Fin.cast hlen g)
  have hP : pinv _ _ (shMat 5 ((fun g : Fin h.azi.length => h.azi.getD g 0) ∘ e) ((fun g : Fin h.azi.length => h.zen.getD g 0) ∘ e)) =
      (pinv _ _ (shMat 5 (fun g : Fin h.azi.length => h.azi.getD g 0) fun g => h.zen.getD g 0)).submatrix id e :=
    pinv_unique (hpinv _ _ _) (pinv_along (hpinv _ _ (shMat 5 (fun g : Fin h.azi.length => h.azi.getD g 0) fun g => h.zen.getD g 0)) e)
  obtain ⟨w, hw⟩ : ∃ w : Fin h.azi.length → ℝ, w = (Grids.gridWeights (pinv _) (fun g : Fin h.azi.length => h.azi.getD g 0) (fun g => h.zen.getD g 0) 5).1 := ⟨_, rfl⟩
  have hw' : List.ofFn (Grids.gridWeights (pinv _) (fun g : Fin (reorder σ h).azi.length => (reorder σ h).azi.getD g 0) (fun g => (reorder σ h).zen.getD g 0) 5).1 =
      List.ofFn fun g : Fin h.azi.length => (List.ofFn w).getD (σ g) 0 := by
    rw [ha, hz]
    unfold Grids.gridWeights at hw ⊢
    simp only at hw ⊢
    rw [hP]
    refine List.ext_getElem (by simp [hlen]) fun i h1 h2 => ?_
    have hi : i < h.azi.length := by simpa using h2
    simp only [List.getElem_ofFn, List.getD_eq_getElem?_getD, List.getElem?_ofFn, (σ ⟨i, hi⟩).2, dif_pos, Option.getD_some, hw, Matrix.submatrix_apply, id, he]
    rfl
  have step : ∀ k : HRIRs, hrirsCtf minPhase pinv k isMin lims none =
      ctfWith minPhase k isMin lims (List.ofFn (Grids.gridWeights (pinv _) (fun g : Fin k.azi.length => k.azi.getD g 0) (fun g => k.zen.getD g 0) 5).1) := fun k => rfl
  rw [step, step, hw', ← hw]
  exact C90_reorder minPhase pinv h isMin lims (List.ofFn w) (by simp) σ

theorem realMul_along {G G' K : ℕ} (P : Matrix (Fin K) (Fin G) ℝ) (v : Fin G → ℂ) (e : Fin G' ≃ Fin G) : realMul (P.submatrix id e) (v ∘ e) = realMul P v := by
  funext i
  exact Equiv.sum_comp e fun j => (P i j : ℂ) * v j

theorem magCoeffs_along {G G' K : ℕ} (Y : Matrix (Fin G) (Fin K) ℝ) (P : Matrix (Fin K) (Fin G) ℝ) (H : Fin G → ℕ → ℂ) (cut : ℕ) (delta : Fin G → ℝ) (e : Fin G' ≃ Fin G) (k : ℕ) :
    magCoeffs (Y.submatrix e id) (P.submatrix id e) (fun g => H (e g)) cut (fun g => delta (e g)) k = magCoeffs Y P H cut delta k := by
  have step : ∀ (prev : Fin K → ℂ) (k : ℕ), magStep (Y.submatrix e id) (P.submatrix id e) (fun g => delta (e g)) prev (fun g => H (e g) k) = magStep Y P delta prev fun g => H g k := by
    intro prev k
    unfold magStep
    exact realMul_along P (fun g => (‖H g k‖ : ℂ) * Complex.exp (Complex.I * (((realMul Y prev g).arg + delta g : ℝ) : ℂ))) e
  have lin : ∀ k, realMul (P.submatrix id e) (fun g => H (e g) k) = realMul P fun g => H g k := fun k => realMul_along P (fun g => H g k) e
  induction k with
  | zero => simp only [magCoeffs, lin, step]
  | succ k ih => simp only [magCoeffs, lin, step, ih]

theorem magEar_along {G G' N : ℕ} (Y : Matrix (Fin G) (Fin ((N + 1) ^ 2)) ℝ) (P : Matrix (Fin ((N + 1) ^ 2)) (Fin G) ℝ) (S : ℕ) (a a' : Arr2) (cut : ℕ) (cont : HfCont) (d : ℝ)
    (e : Fin G' ≃ Fin G) (ha : ∀ g : Fin G', a'.rows.getD (g : ℕ) [] = a.rows.getD (e g) []) :
    magEar (Y.submatrix e id) (P.submatrix id e) S a' cut cont d = magEar Y P S a cut cont d := by
  have hH : (fun (g : Fin G') k => hrtf (magNfft S) a' g k) = fun g => (fun (g : Fin G) k => hrtf (magNfft S) a g k) (e g) := by
    funext g k
    simp only [hrtf, ha]
  have lin : ∀ k, realMul (P.submatrix id e) (fun g => hrtf (magNfft S) a (e g) k) = realMul P fun g => hrtf (magNfft S) a g k :=
    fun k => realMul_along P (fun g => hrtf (magNfft S) a g k) e
  have hY : ∀ v g, realMul (Y.submatrix e id) v g = realMul Y v (e g) := fun v g => rfl
  unfold magEar
  simp only [hH]
  have hd : magDelta (Y.submatrix e id) (P.submatrix id e) (fun g => (fun (g : Fin G) k => hrtf (magNfft S) a g k) (e g)) cut cont =
      (magDelta Y P (fun (g : Fin G) k => hrtf (magNfft S) a g k) cut cont).map (· ∘ e) := by
    unfold magDelta
    cases cont with
    | avg => simp only [lin]; split <;> rfl
    | angle => simp only [lin, hY]; split <;> rfl
    | delay => rfl
    | other => rfl
  rw [hd]
  cases magDelta Y P (fun (g : Fin G) k => hrtf (magNfft S) a g k) cut cont with
  | error _ => rfl
  | ok delta =>
    change List.mapM _ _ = List.mapM _ _
    congr 1
    funext q
    congr 1
    funext k
    exact congrFun (magCoeffs_along Y P (fun (g : Fin G) k => hrtf (magNfft S) a g k) cut (fun g => delta g - 2 * π * (d / (magNfft S : ℕ))) e k) q

/-- **C150** `magls_bin` does not depend on the numbering. -/
theorem C150_magls (pinv : (m n : ℕ) → Matrix (Fin m) (Fin n) ℝ → Matrix (Fin n) (Fin m) ℝ) (hpinv : ∀ m n A, IsPinv A (pinv m n A)) (h : HRIRs) (hg : h.Grid) (N : ℕ)
    (fTrans : Option ℝ) (cont : HfCont) (hfDelay : ℝ × ℝ) (σ : Equiv.Perm (Fin h.azi.length)) :
    maglsBin pinv (reorder σ h) N fTrans cont hfDelay = maglsBin pinv h N fTrans cont hfDelay := by
  have hlen : (reorder σ h).azi.length = h.azi.length := by simp [reorder]
  obtain ⟨e, he⟩ : ∃ e : Fin (reorder σ h).azi.length ≃ Fin h.azi.length, ∀ g, (e g) = σ (Fin.cast hlen g) := ⟨(finCongr hlen).trans σ, fun g => rfl⟩
  have hY : shMat N (fun g : Fin (reorder σ h).azi.length => (reorder σ h).azi.getD g 0) (fun g => (reorder σ h).zen.getD g 0) =
      (shMat N (fun g : Fin h.azi.length => h.azi.getD g 0) fun g => h.zen.getD g 0).submatrix e id := by
    have ha : (fun g : Fin (reorder σ h).azi.length => (reorder σ h).azi.getD g 0) = (fun g : Fin h.azi.length => h.azi.getD g 0) ∘ e := by
      funext g
      rw [Function.comp_apply, he]
      exact getD_reordered σ h.azi 0 (Fin.cast hlen g)
    have hz : (fun g : Fin (reorder σ h).azi.length => (reorder σ h).zen.getD g 0) = (fun g : Fin h.azi.length => h.zen.getD g 0) ∘ e := by
      funext g
      rw [Function.comp_apply, he]
      exact getD_reordered σ h.zen 0 (Fin.cast hlen g)
    rw [ha, hz]; rfl
  have hP : pinv _ _ ((shMat N (fun g : Fin h.azi.length => h.azi.getD g 0) fun g => h.zen.getD g 0).submatrix e id) =
      (pinv _ _ (shMat N (fun g : Fin h.azi.length => h.azi.getD g 0) fun g => h.zen.getD g 0)).submatrix id e :=
    pinv_unique (hpinv _ _ _) (pinv_along (hpinv _ _ _) e)
  have hl : ∀ g : Fin (reorder σ h).azi.length, (reorder σ h).left.rows.getD (g : ℕ) [] = h.left.rows.getD (e g) [] := fun g => by
    rw [he]; exact getD_reordered σ h.left.rows [] (Fin.cast hlen g)
  have hr : ∀ g : Fin (reorder σ h).azi.length, (reorder σ h).right.rows.getD (g : ℕ) [] = h.right.rows.getD (e g) [] := fun g => by
    rw [he]; exact getD_reordered σ h.right.rows [] (Fin.cast hlen g)
  unfold maglsBin
  simp only [hY, hP, magEar_along _ _ _ _ _ _ _ _ e hl, magEar_along _ _ _ _ _ _ _ _ e hr]
  have c1 : ¬((reorder σ h).left.rows.length ≠ (reorder σ h).azi.length ∨ (reorder σ h).right.rows.length ≠ (reorder σ h).azi.length) := by simp [reorder]
  have c2 : ¬(h.left.rows.length ≠ h.azi.length ∨ h.right.rows.length ≠ h.azi.length) := by rw [hg.2.2.1, hg.2.2.2]; simp
  simp only [if_neg c1, if_neg c2]
  rfl

/-- **C150** (partial: sources without ties) `render_bsdm` and `LoudspeakerSetup.binauralize` do not depend on the numbering of the directions of the set. -/
theorem C150_binaural_partial (h : HRIRs) (hg : h.Grid) (σ : Equiv.Perm (Fin h.azi.length)) :
    (∀ (lock cpus : ℕ) (p phi theta : List ℝ) (j j' : Option ℤ) (out out' : Py (List ℝ × List ℝ)), 1 ≤ j.getD cpus → 1 ≤ j'.getD cpus →
      (∀ x ∈ phi.zip theta, UniqueNearest h x.1 x.2) → RenderBsdm (fun _ _ => lock) cpus p phi theta h j out → RenderBsdm (fun _ _ => lock) cpus p phi theta (reorder σ h) j' out' →
      out' = out) ∧
    ∀ {L R S : ℕ} (H : Hull L) (ls : Matrix (Fin R) (Fin S) ℝ) (fs : ℝ) (o : ℝ × ℝ),
      (∀ l, let rel := H.points l - H.listener
        let c := cart2sph (rel 0) (rel 1) (rel 2) false false
        UniqueNearest h (c.1 - o.1) (c.2.1 - o.2)) →
      binauralize H ls fs o (reorder σ h) = binauralize H ls fs o h := by
  refine ⟨fun lock cpus p phi theta j j' out out' hj hj' hu hr hr' => ?_, fun H ls fs o hu => ?_⟩
  · have ht : (bsdmSamples p phi theta).mapM (bsdmTask (reorder σ h) (p.length + (reorder σ h).numSamples - 1)) = (bsdmSamples p phi theta).mapM (bsdmTask h (p.length + h.numSamples - 1)) := by
      refine mapM_congr_mem _ _ _ fun x hx => ?_
      have hx' : x.1.2 ∈ phi.zip theta := by
        have h1 : x.1 ∈ p.zip (phi.zip theta) := by
          obtain ⟨⟨y, n⟩⟩ := x
          unfold bsdmSamples at hx
          exact List.fst_mem_of_mem_zipIdx hx
        exact (List.of_mem_zip (a := x.1.1) (b := x.1.2) h1).2
      unfold bsdmTask
      rw [C150_nearest_partial h hg σ _ _ (hu _ hx')]
      rfl
    have hr2 : RenderBsdm (fun _ _ => lock) cpus p phi theta h j' out' := by
      cases hr' with
      | raises e hj ht' => exact .raises e hj (by rw [← ht]; exact ht')
      | noJobs hj => exact .noJobs hj
      | serial tasks hj ht' => exact .serial tasks hj (by rw [← ht]; exact ht')
      | parallel tasks W s hj hW ht' hrun hfin => exact .parallel tasks W s hj hW (by rw [← ht]; exact ht') hrun hfin
    exact C62_schedule lock cpus cpus p phi theta h j' j hj' hj out' out hr2 hr
  · unfold binauralize
    have hs : ∀ (l : Fin _) (x : List ℝ) (acc : List ℝ × List ℝ), binauralStep H (reorder σ h) o l x acc = binauralStep H h o l x acc := by
      intro l x acc
      unfold binauralStep
      simp only [C150_nearest_partial h hg σ _ _ (hu l)]
    simp only [hs]
    rfl

/-! #### examples -/

/-- A direction on the grid with a single nearest point. -/
theorem twoHrirs_front : UniqueNearest twoHrirs 0 (π / 2) := by
  have hc : ∀ a' z', cos (haversine 0 (π / 2) a' z') = dot3 (sph2cart 0 (π / 2)) (sph2cart a' z') := fun a' z' => (dot3_eq_cos _ _ _ _).symm
  have h0 : haversine 0 (π / 2) 0 (π / 2) = 0 := by
    have h1 : cos (haversine 0 (π / 2) 0 (π / 2)) = cos 0 := by rw [hc]; simp [dot3, sph2cart]
    have hm := haversine_mem 0 (π / 2) 0 (π / 2)
    exact injOn_cos hm ⟨le_rfl, pi_pos.le⟩ h1
  have h1 : haversine 0 (π / 2) (π / 2) (π / 2) ≠ 0 := by
    intro hz
    have := hc (π / 2) (π / 2)
    rw [hz] at this
    simp [dot3, sph2cart] at this
  have hm := (haversine_mem 0 (π / 2) (π / 2) (π / 2)).1
  intro i j hi hj mi mj
  have hi' : i < 2 := hi
  have hj' : j < 2 := hj
  have no : ∀ i, i = 1 → ¬∀ k < twoHrirs.azi.length, haversine 0 (π / 2) (twoHrirs.azi.getD i 0) (twoHrirs.zen.getD i 0) ≤ haversine 0 (π / 2) (twoHrirs.azi.getD k 0) (twoHrirs.zen.getD k 0) := by
    rintro i rfl hk
    have := hk 0 (by simp [twoHrirs])
    have e : haversine 0 (π / 2) (π / 2) (π / 2) ≤ haversine 0 (π / 2) 0 (π / 2) := this
    rw [h0] at e
    exact h1 (le_antisymm e hm)
  have e1 : i = 0 := by
    by_contra hn
    exact no i (by omega) mi
  have e2 : j = 0 := by
    by_contra hn
    exact no j (by omega) mj
  rw [e1, e2]
  exact ⟨rfl, rfl⟩

/-- `C150_nearest_partial`: the two directions of `twoHrirs` exchanged. -/
example : (reorder (Equiv.swap (0 : Fin 2) (1 : Fin 2)) twoHrirs).nearestHrirs 0 (π / 2) = twoHrirs.nearestHrirs 0 (π / 2) :=
  C150_nearest_partial twoHrirs twoHrirs_grid (Equiv.swap (0 : Fin 2) (1 : Fin 2)) 0 (π / 2) twoHrirs_front

/-- `C150_interaural`: with an all-pass for the band-pass, the level differences of `twoHrirs`. -/
example : ∃ (bp : BandPass) (v : List Level), ildsFromHrirs bp twoHrirs (100, 1000) false = .ok v ∧
    ildsFromHrirs bp (reorder (Equiv.swap (0 : Fin 2) (1 : Fin 2)) twoHrirs) (100, 1000) false = .ok [v.getD 1 .nan, v.getD 0 .nan] := by
  refine ⟨⟨fun _ _ x => .ok x, fun _ _ x y h => by cases h; rfl⟩, _, rfl, ?_⟩
  exact (C150_interaural ⟨fun _ _ x => .ok x, fun _ _ x y h => by cases h; rfl⟩ ⟨fun _ _ n => n, fun _ _ x => x, fun _ _ _ => rfl⟩ twoHrirs twoHrirs_grid (Equiv.swap (0 : Fin 2) (1 : Fin 2))
    (100, 1000) false 1).1 _ rfl

/-- `C150_transforms`, `C150_weights`, `C150_ctf`, `C150_magls`: solvers as specified exist. -/
example (h : HRIRs) (hg : h.Grid) (σ : Equiv.Perm (Fin h.azi.length)) : ∃ pinv : (m n : ℕ) → Matrix (Fin m) (Fin n) ℝ → Matrix (Fin n) (Fin m) ℝ, (∀ m n A, IsPinv A (pinv m n A)) ∧
    maglsBin pinv (reorder σ h) 3 (some 1800) .angle (0, 0) = maglsBin pinv h 3 (some 1800) .angle (0, 0) := by
  choose P hP using fun (m n : ℕ) (A : Matrix (Fin m) (Fin n) ℝ) => exists_pinv A
  exact ⟨P, hP, C150_magls P hP h hg 3 _ _ _ σ⟩

/-- `C150_binaural_partial`: two samples from the front. -/
example : ∃ out out', RenderBsdm (fun _ _ => 0) 8 [1, 2] [0, 0] [π / 2, π / 2] twoHrirs (some 1) out ∧
    RenderBsdm (fun _ _ => 0) 8 [1, 2] [0, 0] [π / 2, π / 2] (reorder (Equiv.swap (0 : Fin 2) (1 : Fin 2)) twoHrirs) (some 2) out' ∧ out' = out := by
  obtain ⟨o₁, r₁⟩ := (C62_completes 0 8 [1, 2] [0, 0] [π / 2, π / 2] twoHrirs (some 1)).1
  obtain ⟨o₂, r₂⟩ := (C62_completes 0 8 [1, 2] [0, 0] [π / 2, π / 2] (reorder (Equiv.swap (0 : Fin 2) (1 : Fin 2)) twoHrirs) (some 2)).1
  refine ⟨o₁, o₂, r₁, r₂, (C150_binaural_partial twoHrirs twoHrirs_grid (Equiv.swap (0 : Fin 2) (1 : Fin 2))).1 0 8 [1, 2] [0, 0] [π / 2, π / 2] (some 1) (some 2) o₁ o₂ (by norm_num) (by norm_num)
    ?_ r₁ r₂⟩
  intro x hx
  have : x = (0, π / 2) := by simpa using hx
  rw [this]
  exact twoHrirs_front

end Verif.Props
