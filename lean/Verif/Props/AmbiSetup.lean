import Verif.Props.Imaginary
import Verif.Props.AmbiPanning

/-! C129: what `ambisonics_setup` prepares, and when it succeeds. -/

namespace Verif.Props
open Real Verif.Sph Verif.Utils Verif.Decoder

theorem mkAmbi_ok (qhull : (L : ℕ) → (Fin L → Vec3) → Py (List (Face L))) {L : ℕ} (h : Hull L) (im : Option (List Vec3)) :
    mkAmbi qhull h im = (mkHull qhull (Fin.append h.points fun i : Fin (im.getD []).length => (im.getD [])[i]) 0).bind fun hull =>
      .ok ⟨(im.getD []).length, hull, im.map fun _ => (List.finRange (im.getD []).length).map (Fin.natAdd L)⟩ := rfl

theorem mkHull_points (qhull : (L : ℕ) → (Fin L → Vec3) → Py (List (Face L))) {L : ℕ} (pts : Fin L → Vec3) (h : Hull L)
    (hh : mkHull qhull pts 0 = .ok h) : h.points = pts := by
  unfold mkHull at hh
  change (qhull L fun l => pts l - 0).bind _ = _ at hh
  rcases hq : qhull L fun l => pts l - 0 with e | f
  · rw [hq] at hh; cases hh
  · rw [hq] at hh
    rw [← Except.ok.inj hh]
    funext l
    exact sub_zero _

theorem mkHull_isOk (qhull : (L : ℕ) → (Fin L → Vec3) → Py (List (Face L))) {L : ℕ} (pts : Fin L → Vec3) :
    (∃ h, mkHull qhull pts 0 = .ok h) ↔ ∃ f, qhull L pts = .ok f := by
  have hz : (fun l => pts l - 0) = pts := by funext l; exact sub_zero _
  unfold mkHull
  change (∃ h, (qhull L fun l => pts l - 0).bind _ = .ok h) ↔ _
  rw [hz]
  rcases qhull L pts with e | f
  · constructor <;> rintro ⟨x, hx⟩ <;> cases hx
  · exact ⟨fun _ => ⟨f, rfl⟩, fun _ => ⟨_, rfl⟩⟩

theorem setupHulls_inv (qhull : (L : ℕ) → (Fin L → Vec3) → Py (List (Face L))) (nd : ℤ → Option (List Vec3)) {L : ℕ} (h : Hull L)
    (u : Bool) (im : Option (List Vec3)) (nk : ℤ) {r : Ambi L × Kernel} (hr : setupHulls qhull nd h u im nk = .ok r) :
    ∃ im' vs x f, imaginaryPoints h u im = .ok im' ∧ mkAmbi qhull h im' = .ok r.1 ∧ Grids.loadNDesign nd (2 * nk) = .ok (vs, x) ∧
      qhull vs.length (fun i => vs[i]) = .ok f ∧ r.2 = ⟨vs.length, fun i => vs[i], nk⟩ := by
  unfold setupHulls at hr
  rcases hi : imaginaryPoints h u im with e | im'
  · rw [hi] at hr; cases hr
  rw [hi] at hr
  change (mkAmbi qhull h im').bind _ = _ at hr
  rcases hm : mkAmbi qhull h im' with e | am
  · rw [hm] at hr; cases hr
  rw [hm] at hr
  change (Grids.loadNDesign nd (2 * nk)).bind _ = _ at hr
  rcases hl : Grids.loadNDesign nd (2 * nk) with e | ⟨vs, x⟩
  · rw [hl] at hr; cases hr
  rw [hl] at hr
  change (qhull vs.length fun i => vs[i]).bind _ = _ at hr
  rcases hq : qhull vs.length fun i => vs[i] with e | f
  · rw [hq] at hr; cases hr
  rw [hq] at hr
  have := Except.ok.inj hr
  subst this
  exact ⟨im', vs, x, f, rfl, hm, rfl, hq, rfl⟩

/-- C129: a completed `ambisonics_setup()`: the Ambisonic hull is the hull of the loudspeakers followed by the imaginary ones (none without `update_hull`, the
given ones, or the one found by `find_imaginary_loudspeaker`); the kernel is the design of degree `2 N_kernel`; the characteristic order is the given one or
the one of the layout. -/
theorem C129_setup {L : ℕ} (qhull : (L : ℕ) → (Fin L → Vec3) → Py (List (Face L))) (lstsq : Mat3 → Mat3)
    (ndesign : ℤ → Option (List Vec3)) (s : Setup L) (u : Bool) (im : Option (List Vec3)) (c : Option ℕ) (nk : Option ℤ)
    (h : (ambisonicsSetup qhull lstsq ndesign s u im c nk).1 = .ok ()) :
    ∃ (am : Ambi L) (k : Kernel) (n : ℕ), (ambisonicsSetup qhull lstsq ndesign s u im c nk).2 =
        { s with charOrder := some n, ambi := some am, kernel := some k } ∧
      mkHull qhull am.hull.points 0 = .ok am.hull ∧ (∀ l, am.hull.points (Fin.castAdd am.M l) = s.points l) ∧
      (u = false → am.M = 0) ∧
      (∀ vs, u = true → im = some vs → List.ofFn (fun i => am.hull.points (Fin.natAdd L i)) = vs) ∧
      (u = true → im = none → ∃ p, findImaginaryLoudspeaker s.toHull = .ok p ∧ List.ofFn (fun i => am.hull.points (Fin.natAdd L i)) = [p]) ∧
      (∃ x, Grids.loadNDesign ndesign (2 * k.nKernel) = .ok (List.ofFn k.points, x)) ∧ nk = some k.nKernel ∧
      (∀ n', c = some n' → n = n') ∧ (c = none → getCharacteristicOrder lstsq s.toHull = .ok n) := by
  unfold ambisonicsSetup at h ⊢
  rcases ho : setupOrder lstsq s.toHull c with e | n
  · rw [ho] at h; cases h
  rw [ho] at h
  cases nk with
  | none => cases h
  | some nk =>
    dsimp only at h ⊢
    rcases hr : setupHulls qhull ndesign { s.toHull with charOrder := some n } u im nk with e | ⟨am, ke⟩
    · rw [hr] at h; cases h
    obtain ⟨im', vs, x, f, hi, hm, hl, hq, hk⟩ := setupHulls_inv _ _ _ _ _ _ hr
    dsimp only at hm hk
    rw [mkAmbi_ok] at hm
    rcases hh : mkHull qhull (Fin.append s.points fun i : Fin (im'.getD []).length => (im'.getD [])[i]) 0 with e | hull
    · rw [hh] at hm; cases hm
    rw [hh] at hm
    have ha := Except.ok.inj hm
    subst ha
    have hp := mkHull_points qhull _ _ hh
    have hadd : List.ofFn (fun i : Fin (im'.getD []).length => hull.points (Fin.natAdd L i)) = im'.getD [] := by
      rw [hp]
      simp only [Fin.append_right]
      exact List.ofFn_getElem
    refine ⟨_, ke, n, rfl, ?_, ?_, ?_, ?_, ?_, ?_, ?_, ?_, ?_⟩
    · dsimp only
      rw [hp]; exact hh
    · intro l
      dsimp only
      rw [hp]; exact Fin.append_left _ _ l
    · rintro rfl
      have := Except.ok.inj hi
      subst this; rfl
    · rintro vs' rfl rfl
      have := Except.ok.inj hi
      subst this; exact hadd
    · rintro rfl rfl
      unfold imaginaryPoints at hi
      rw [if_pos rfl] at hi
      change (findImaginaryLoudspeaker s.toHull).bind _ = _ at hi
      rcases hf : findImaginaryLoudspeaker s.toHull with e | p
      · rw [hf] at hi; cases hi
      · rw [hf] at hi
        have := Except.ok.inj hi
        subst this
        exact ⟨p, rfl, hadd⟩
    · rw [hk]
      exact ⟨x, by rw [hl, show (List.ofFn fun i : Fin vs.length => vs[i]) = vs from List.ofFn_getElem]⟩
    · rw [hk]
    · rintro n' rfl
      exact (Except.ok.inj ho).symm
    · rintro rfl
      exact ho

/-- C129: why `ambisonics_setup()` raises: an order that cannot be computed passes its exception on and changes nothing; `N_kernel=None` is a `TypeError` after the
order has been stored; a missing design is the exception of `load_n_design`, also after that. -/
theorem C129_errors {L : ℕ} (qhull : (L : ℕ) → (Fin L → Vec3) → Py (List (Face L))) (lstsq : Mat3 → Mat3)
    (ndesign : ℤ → Option (List Vec3)) (s : Setup L) (u : Bool) (im : Option (List Vec3)) (n : ℕ) (nk : Option ℤ) :
    (∀ e, getCharacteristicOrder lstsq s.toHull = .error e → ambisonicsSetup qhull lstsq ndesign s u im none nk = (.error e, s)) ∧
    ambisonicsSetup qhull lstsq ndesign s u im (some n) none = (.error .typeError, { s with charOrder := some n }) ∧
    (∀ k f, qhull L s.points = .ok f → nk = some k → ∀ e, Grids.loadNDesign ndesign (2 * k) = .error e →
      ambisonicsSetup qhull lstsq ndesign s false im (some n) nk = (.error e, { s with charOrder := some n })) := by
  refine ⟨?_, rfl, ?_⟩
  · intro e he
    have : setupOrder lstsq s.toHull none = .error e := he
    unfold ambisonicsSetup
    rw [this]
  · rintro k f hf rfl e he
    have : setupHulls qhull ndesign { s.toHull with charOrder := some n } false im k = .error e := by
      obtain ⟨hull, hh⟩ := (mkHull_isOk qhull s.points).2 ⟨f, hf⟩
      have hp : (Fin.append s.points fun i : Fin (Option.getD (none : Option (List Vec3)) []).length => (Option.getD (none : Option (List Vec3)) [])[i]) = s.points := by
        funext l
        exact Fin.append_left _ _ l
      have hm : ∃ am, mkAmbi qhull { s.toHull with charOrder := some n } none = .ok am := by
        rw [mkAmbi_ok]
        change ∃ am, (mkHull qhull (Fin.append s.points _) 0).bind _ = _
        rw [hp, show mkHull qhull (L := L + (Option.getD (none : Option (List Vec3)) []).length) s.points 0 = _ from hh]
        exact ⟨_, rfl⟩
      obtain ⟨am, hm⟩ := hm
      unfold setupHulls
      change (mkAmbi qhull { s.toHull with charOrder := some n } none).bind _ = _
      rw [hm]
      change (Grids.loadNDesign ndesign (2 * k)).bind _ = _
      rw [he]
      rfl
    unfold ambisonicsSetup setupOrder
    dsimp only
    rw [this]

/-- `C129_errors`: no kernel order, and a kernel order above 62. -/
example (lstsq : Mat3 → Mat3) (nd : ℤ → Option (List Vec3)) (s : Setup 6) (hs : s.points = Oct.pts) :
    (ambisonicsSetup Oct.qhull lstsq nd s false none (some 1) none).1 = .error .typeError ∧
    (ambisonicsSetup Oct.qhull lstsq nd s false none (some 1) (some 63)).1 = .error .valueError := by
  have he : Grids.loadNDesign nd (2 * 63) = .error .valueError := by
    unfold Grids.loadNDesign Grids.loadNext
    rw [if_pos (by norm_num)]
  have h := C129_errors Oct.qhull lstsq nd s false none 1 (some 63)
  exact ⟨by rw [h.2.1], by rw [h.2.2 63 _ (by rw [hs]; exact dif_pos rfl) rfl _ he]⟩

/-- C129: exactly when it completes: an order is given or can be computed, `N_kernel` is given, an imaginary loudspeaker that is needed can be found, the
loudspeakers have a hull, and there is a design of degree `2 N_kernel`, which has a hull as well. -/
theorem C129_completes {L : ℕ} (qhull : (L : ℕ) → (Fin L → Vec3) → Py (List (Face L))) (lstsq : Mat3 → Mat3)
    (ndesign : ℤ → Option (List Vec3)) (s : Setup L) (u : Bool) (im : Option (List Vec3)) (c : Option ℕ) (nk : Option ℤ) :
    (ambisonicsSetup qhull lstsq ndesign s u im c nk).1 = .ok () ↔
      (c = none → ∃ n, getCharacteristicOrder lstsq s.toHull = .ok n) ∧
      (∃ vs : List Vec3, (u = false → vs = []) ∧ (∀ v, u = true → im = some v → vs = v) ∧
        (u = true → im = none → ∃ p, findImaginaryLoudspeaker s.toHull = .ok p ∧ vs = [p]) ∧
        ∃ f, qhull (L + vs.length) (Fin.append s.points fun i : Fin vs.length => vs[i]) = .ok f) ∧
      ∃ k vs x f, nk = some k ∧ Grids.loadNDesign ndesign (2 * k) = .ok (vs, x) ∧ qhull vs.length (fun i => vs[i]) = .ok f := by
  constructor
  · intro h
    unfold ambisonicsSetup at h
    rcases ho : setupOrder lstsq s.toHull c with e | n
    · rw [ho] at h; cases h
    rw [ho] at h
    cases nk with
    | none => cases h
    | some nk =>
      dsimp only at h
      rcases hr : setupHulls qhull ndesign { s.toHull with charOrder := some n } u im nk with e | ⟨am, ke⟩
      · rw [hr] at h; cases h
      obtain ⟨im', vs, x, f, hi, hm, hl, hq, hk⟩ := setupHulls_inv _ _ _ _ _ _ hr
      rw [mkAmbi_ok] at hm
      obtain ⟨f', hf'⟩ : ∃ f', qhull (L + (im'.getD []).length) (Fin.append s.points fun i : Fin (im'.getD []).length => (im'.getD [])[i]) = .ok f' := by
        rw [← mkHull_isOk]
        rcases hh : mkHull qhull (Fin.append s.points fun i : Fin (im'.getD []).length => (im'.getD [])[i]) 0 with e | hull
        · rw [hh] at hm; cases hm
        · exact ⟨_, rfl⟩
      refine ⟨?_, ⟨im'.getD [], ?_, ?_, ?_, f', hf'⟩, nk, vs, x, f, rfl, hl, hq⟩
      · rintro rfl; exact ⟨n, ho⟩
      · rintro rfl
        have := Except.ok.inj hi
        subst this; rfl
      · rintro v rfl rfl
        have := Except.ok.inj hi
        subst this; rfl
      · rintro rfl rfl
        unfold imaginaryPoints at hi
        rw [if_pos rfl] at hi
        change (findImaginaryLoudspeaker s.toHull).bind _ = _ at hi
        rcases hf : findImaginaryLoudspeaker s.toHull with e | p
        · rw [hf] at hi; cases hi
        · rw [hf] at hi
          have := Except.ok.inj hi
          subst this
          exact ⟨p, rfl, rfl⟩
  · rintro ⟨hc, ⟨vs, hv1, hv2, hv3, f, hf⟩, k, ks, x, kf, rfl, hl, hq⟩
    obtain ⟨n, ho⟩ : ∃ n, setupOrder lstsq s.toHull c = .ok n := by
      cases c with
      | some n => exact ⟨n, rfl⟩
      | none => exact hc rfl
    obtain ⟨im', hi, rfl⟩ : ∃ im', imaginaryPoints { s.toHull with charOrder := some n } u im = .ok im' ∧ vs = im'.getD [] := by
      cases u with
      | false => exact ⟨none, rfl, hv1 rfl⟩
      | true =>
        cases im with
        | some v => exact ⟨some v, rfl, hv2 v rfl rfl⟩
        | none =>
          obtain ⟨p, hp, rfl⟩ := hv3 rfl rfl
          refine ⟨some [p], ?_, rfl⟩
          unfold imaginaryPoints
          rw [if_pos rfl]
          change (findImaginaryLoudspeaker s.toHull).bind _ = _
          rw [hp]; rfl
    obtain ⟨hull, hh⟩ := (mkHull_isOk qhull _).2 ⟨f, hf⟩
    have hm : ∃ am, mkAmbi qhull { s.toHull with charOrder := some n } im' = .ok am := by
      rw [mkAmbi_ok]
      dsimp only
      rw [hh]
      exact ⟨_, rfl⟩
    obtain ⟨am, hm⟩ := hm
    unfold ambisonicsSetup
    rw [ho]
    dsimp only
    rw [setupHulls_ok qhull ndesign _ u im k hi hm hl hq]

/-- C129 on the octahedron: with the six vertices as kernel the setup completes, without imaginary loudspeakers. -/
example (lstsq : Mat3 → Mat3) : ∃ (am : Ambi 6) (k : Kernel),
    (ambisonicsSetup Oct.qhull lstsq (fun _ => some (List.ofFn Oct.pts)) (L := 6) ⟨Oct.hull, none, none⟩ false none (some 1) (some 1)).2.ambi = some am ∧
    am.M = 0 ∧ k.nKernel = 1 ∧ ∀ l, am.hull.points (Fin.castAdd am.M l) = Oct.pts l := by
  obtain ⟨am, k, n, he, -, h2, h3, -, -, -, h7, -, -⟩ := C129_setup Oct.qhull lstsq _ _ false none (some 1) (some 1) (oct_setup lstsq)
  exact ⟨am, k, by rw [he], h3 rfl, (Option.some.inj h7).symm, h2⟩

end Verif.Props
