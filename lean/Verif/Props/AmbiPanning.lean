import Verif.Props.AmbiDecoders

/-!
C40 (Ambisonic rendering needs a prepared setup), C41 (ALLRAD and ALLRAP).
-/

namespace Verif.Props
open Real Verif.Sph Verif.Utils Verif.Decoder

/-! ### C40 -/

/-- A call on a setup. -/
inductive ACall (L : ℕ)
  | vbap (p : ℝ) (src : List Vec3) (validArg : Option (List (Face L))) (retain : Bool)
  | vbip (p : ℝ) (src : List Vec3) (validArg : Option (List (Face L))) (retain : Bool)
  | pop (normal aperture opening : Option ℝ) (blacklist : Option (List ℕ))
  | setup (updateHull : Bool) (imaginary : Option (List Vec3)) (charOrder : Option ℕ) (nKernel : Option ℤ)
  | allrap (n : ℕ) (src : Fin n → Vec3) (N : Option ℕ)
  | allrap2 (n : ℕ) (src : Fin n → Vec3) (N : Option ℕ)
  | allrad (K S : ℕ) (F : Matrix (Fin K) (Fin S) ℝ) (N : Option ℕ)
  | allrad2 (K S : ℕ) (F : Matrix (Fin K) (Fin S) ℝ) (N : Option ℕ)

/-- The state after a call, and the exception it raised, if any. -/
noncomputable def ACall.run {L : ℕ} (qhull : (L : ℕ) → (Fin L → Vec3) → Py (List (Face L))) (lstsq : Mat3 → Mat3)
    (ndesign : ℤ → Option (List Vec3)) (s : Setup L) : ACall L → Py Unit × Setup L
  | .vbap p src v r => ((Decoder.vbap lstsq p src v r s).1.map fun _ => (), (Decoder.vbap lstsq p src v r s).2)
  | .vbip p src v r => ((Decoder.vbip lstsq p src v r s).1.map fun _ => (), (Decoder.vbip lstsq p src v r s).2)
  | .pop n a o b => (.ok (), { s with toHull := popTriangles s.toHull n a o b })
  | .setup u i c k => ambisonicsSetup qhull lstsq ndesign s u i c k
  | .allrap _ src N => ((Decoder.allrap lstsq src N s).1.map fun _ => (), (Decoder.allrap lstsq src N s).2)
  | .allrap2 _ src N => ((Decoder.allrap2 lstsq src N s).1.map fun _ => (), (Decoder.allrap2 lstsq src N s).2)
  | .allrad _ _ F N => ((Decoder.allrad lstsq F N s).1.map fun _ => (), (Decoder.allrad lstsq F N s).2)
  | .allrad2 _ _ F N => ((Decoder.allrad2 lstsq F N s).1.map fun _ => (), (Decoder.allrad2 lstsq F N s).2)

/-- `ambisonics_setup()` that returned normally. -/
noncomputable def ACall.completes {L : ℕ} (qhull : (L : ℕ) → (Fin L → Vec3) → Py (List (Face L))) (lstsq : Mat3 → Mat3)
    (ndesign : ℤ → Option (List Vec3)) (s : Setup L) : ACall L → Prop
  | .setup u i c k => (ambisonicsSetup qhull lstsq ndesign s u i c k).1 = .ok ()
  | _ => False

/-- The state after a sequence of calls (exceptions are caught by the caller), and whether some `ambisonics_setup()` completed. -/
noncomputable def runAll {L : ℕ} (qhull : (L : ℕ) → (Fin L → Vec3) → Py (List (Face L))) (lstsq : Mat3 → Mat3)
    (ndesign : ℤ → Option (List Vec3)) : Setup L → List (ACall L) → Setup L × Prop
  | s, [] => (s, False)
  | s, c :: cs =>
    let r := runAll qhull lstsq ndesign (c.run qhull lstsq ndesign s).2 cs
    (r.1, c.completes qhull lstsq ndesign s ∨ r.2)

/-- C40: a failing `ambisonics_setup()` leaves the Ambisonic hull and the kernel (and everything but the characteristic order) as they
were; a successful one sets both. -/
theorem C40_setup {L : ℕ} (qhull : (L : ℕ) → (Fin L → Vec3) → Py (List (Face L))) (lstsq : Mat3 → Mat3)
    (ndesign : ℤ → Option (List Vec3)) (s : Setup L) (u : Bool) (im : Option (List Vec3)) (c : Option ℕ) (k : Option ℤ) :
    (∀ e, (ambisonicsSetup qhull lstsq ndesign s u im c k).1 = .error e →
      ∃ co, (ambisonicsSetup qhull lstsq ndesign s u im c k).2 = { s with charOrder := co }) ∧
    ((ambisonicsSetup qhull lstsq ndesign s u im c k).1 = .ok () →
      (ambisonicsSetup qhull lstsq ndesign s u im c k).2.ambi.isSome ∧
      (ambisonicsSetup qhull lstsq ndesign s u im c k).2.kernel.isSome ∧
      (ambisonicsSetup qhull lstsq ndesign s u im c k).2.points = s.points) := by
  unfold ambisonicsSetup
  dsimp only
  rcases setupOrder lstsq s.toHull c with e | n
  · exact ⟨fun _ _ => ⟨s.charOrder, rfl⟩, fun h => by cases h⟩
  · cases k with
    | none => exact ⟨fun _ _ => ⟨some n, rfl⟩, fun h => by cases h⟩
    | some nk =>
      dsimp only
      rcases setupHulls qhull ndesign _ u im nk with e | ⟨am, k⟩
      · exact ⟨fun _ _ => ⟨some n, rfl⟩, fun h => by cases h⟩
      · exact ⟨fun _ h => (by cases h), fun _ => ⟨rfl, rfl, rfl⟩⟩

/-- C40: without an Ambisonic hull or kernel, all Ambisonic renderers raise `ValueError` and change nothing; so does
`vbap(retain_outside=True)` without an Ambisonic hull. -/
theorem C40_guard {L n K S : ℕ} (lstsq : Mat3 → Mat3) (s : Setup L) (src : Fin n → Vec3) (F : Matrix (Fin K) (Fin S) ℝ)
    (N : Option ℕ) (p : ℝ) (vsrc : List Vec3) :
    (s.ambi = none ∨ s.kernel = none →
      allrap lstsq src N s = (.error .valueError, s) ∧ allrap2 lstsq src N s = (.error .valueError, s) ∧
      allrad lstsq F N s = (.error .valueError, s) ∧ allrad2 lstsq F N s = (.error .valueError, s)) ∧
    (s.ambi = none → vbap lstsq p vsrc none true s = (.error .valueError, s) ∧
      vbip lstsq p vsrc none true s = (.error .valueError, s)) := by
  have hpro : s.ambi = none ∨ s.kernel = none → ambiPrologue s N = .error .valueError := by
    rintro (h | h)
    · unfold ambiPrologue; rw [h]
    · unfold ambiPrologue
      rcases hs : s.ambi with _ | am
      · rfl
      · simp only [h]
  constructor
  · intro h
    have := hpro h
    refine ⟨?_, ?_, ?_, ?_⟩
    · unfold allrap; rw [this]
    · unfold allrap2; rw [this]
    · unfold allrad; rw [this]
    · unfold allrad2; rw [this]
  · intro h
    have hv : ∀ p, vbap lstsq p vsrc none true s = (.error .valueError, s) := by
      intro p
      unfold vbap
      simp [h]
    refine ⟨hv p, ?_⟩
    unfold vbip
    rw [hv 2]
    rfl

theorem allrap2_some {L n : ℕ} (lstsq : Mat3 → Mat3) (src : Fin n → Vec3) (N : Option ℕ) (s : Setup L) :
    (allrap2 lstsq src N s).2.ambi.isSome = s.ambi.isSome ∧ (allrap2 lstsq src N s).2.kernel = s.kernel := by
  unfold allrap2 ambiPrologue
  rcases hs : s.ambi with _ | am
  · simp [hs]
  · rcases hk : s.kernel with _ | k
    · simp [hs, hk]
    · rcases N with _ | N
      · rcases hc : s.charOrder with _ | N <;> simp [hs, hk, hc]
      · simp [hk]

theorem run_isSome {L : ℕ} (qhull : (L : ℕ) → (Fin L → Vec3) → Py (List (Face L))) (lstsq : Mat3 → Mat3)
    (ndesign : ℤ → Option (List Vec3)) (s : Setup L) (hs : s.ambi.isSome = s.kernel.isSome) (c : ACall L) :
    ((c.run qhull lstsq ndesign s).2.ambi.isSome = (c.run qhull lstsq ndesign s).2.kernel.isSome) ∧
    ((c.run qhull lstsq ndesign s).2.kernel.isSome ↔ s.kernel.isSome ∨ c.completes qhull lstsq ndesign s) := by
  have key : ∀ s' : Setup L, s'.ambi.isSome = s.ambi.isSome → s'.kernel = s.kernel →
      (s'.ambi.isSome = s'.kernel.isSome) ∧ (s'.kernel.isSome ↔ s.kernel.isSome ∨ False) := by
    intro s' h1 h2
    rw [h1, h2]; exact ⟨hs, by simp⟩
  have hvb : ∀ p src v r, (vbap lstsq p src v r s).2.ambi.isSome = s.ambi.isSome ∧ (vbap lstsq p src v r s).2.kernel = s.kernel := by
    intro p src v r
    unfold vbap
    split_ifs with h1 h2
    · exact ⟨rfl, rfl⟩
    · rcases ha : s.ambi with _ | am
      · simp [ha]
      · rcases hi : am.imaginary with _ | idx <;> simp [hi, ha]
    · exact ⟨rfl, rfl⟩
  cases c with
  | vbap p src v r => exact key _ (hvb p src v r).1 (hvb p src v r).2
  | vbip p src v r => exact key _ (hvb 2 src v r).1 (hvb 2 src v r).2
  | pop n a o b => exact key _ rfl rfl
  | setup u i co k =>
    have h := C40_setup qhull lstsq ndesign s u i co k
    unfold ACall.run ACall.completes
    rcases hr : (ambisonicsSetup qhull lstsq ndesign s u i co k).1 with e | ⟨⟩
    · obtain ⟨co', h'⟩ := h.1 e hr
      dsimp only
      rw [h', hr]
      exact ⟨hs, by simp⟩
    · obtain ⟨h1, h2, _⟩ := h.2 hr
      dsimp only
      rw [h1, h2, hr]
      simp
  | allrap n src N =>
    refine key _ ?_ ?_ <;> unfold ACall.run allrap ambiPrologue <;>
    · rcases hs : s.ambi with _ | am
      · simp [hs]
      · rcases hk : s.kernel with _ | k
        · simp [hs, hk]
        · rcases N with _ | N
          · rcases hc : s.charOrder with _ | N <;> simp [hs, hk, hc]
          · simp [hk]
  | allrap2 n src N => exact key _ (allrap2_some lstsq src N s).1 (allrap2_some lstsq src N s).2
  | allrad K S F N =>
    refine key _ ?_ ?_ <;> unfold ACall.run allrad ambiPrologue <;>
    · rcases hs : s.ambi with _ | am
      · simp [hs]
      · rcases hk : s.kernel with _ | k
        · simp [hs, hk]
        · rcases N with _ | N
          · rcases hc : s.charOrder with _ | N
            · simp [hs, hk]
            · dsimp only; split_ifs <;> simp [hs, hk]
          · dsimp only; split_ifs <;> simp [hs, hk]
  | allrad2 K S F N =>
    refine key _ ?_ ?_ <;> unfold ACall.run allrad2 ambiPrologue <;>
    · rcases hs : s.ambi with _ | am
      · simp [hs]
      · rcases hk : s.kernel with _ | k
        · simp [hs, hk]
        · rcases N with _ | N
          · rcases hc : s.charOrder with _ | N
            · simp [hs, hk]
            · dsimp only; split_ifs <;> simp [hs, hk, allrap2_some]
          · dsimp only; split_ifs <;> simp [hs, hk, allrap2_some]

/-- C40: over every history of calls, the Ambisonic hull and the kernel are either both unset or both set, and they are set exactly
when some `ambisonics_setup()` call completed. -/
theorem C40_history {L : ℕ} (qhull : (L : ℕ) → (Fin L → Vec3) → Py (List (Face L))) (lstsq : Mat3 → Mat3)
    (ndesign : ℤ → Option (List Vec3)) (s : Setup L) (h0 : s.ambi = none ∧ s.kernel = none) (cs : List (ACall L)) :
    ((runAll qhull lstsq ndesign s cs).1.ambi.isSome ↔ (runAll qhull lstsq ndesign s cs).2) ∧
    ((runAll qhull lstsq ndesign s cs).1.kernel.isSome ↔ (runAll qhull lstsq ndesign s cs).2) := by
  have gen : ∀ (cs : List (ACall L)) (s : Setup L), s.ambi.isSome = s.kernel.isSome →
      ((runAll qhull lstsq ndesign s cs).1.ambi.isSome = (runAll qhull lstsq ndesign s cs).1.kernel.isSome) ∧
      ((runAll qhull lstsq ndesign s cs).1.kernel.isSome ↔ s.kernel.isSome ∨ (runAll qhull lstsq ndesign s cs).2) := by
    intro cs
    induction cs with
    | nil => intro s hs; exact ⟨hs, by simp [runAll]⟩
    | cons c cs ih =>
      intro s hs
      obtain ⟨h1, h2⟩ := run_isSome qhull lstsq ndesign s hs c
      obtain ⟨h3, h4⟩ := ih _ h1
      refine ⟨h3, ?_⟩
      show (runAll qhull lstsq ndesign (c.run qhull lstsq ndesign s).2 cs).1.kernel.isSome ↔ _
      rw [h4, h2, or_assoc]; rfl
  obtain ⟨h1, h2⟩ := gen cs s (by rw [h0.1, h0.2]; rfl)
  rw [h0.2] at h2
  rw [h1]
  simpa using h2

theorem run_order {L : ℕ} (qhull : (L : ℕ) → (Fin L → Vec3) → Py (List (Face L))) (lstsq : Mat3 → Mat3)
    (ndesign : ℤ → Option (List Vec3)) (s : Setup L) (hs : s.kernel.isSome → s.charOrder.isSome) (c : ACall L) :
    (c.run qhull lstsq ndesign s).2.kernel.isSome → (c.run qhull lstsq ndesign s).2.charOrder.isSome := by
  have hvb : ∀ p src v r, (vbap lstsq p src v r s).2.charOrder = s.charOrder ∧ (vbap lstsq p src v r s).2.kernel = s.kernel := by
    intro p src v r
    unfold vbap
    split_ifs with h1 h2
    · exact ⟨rfl, rfl⟩
    · rcases ha : s.ambi with _ | am
      · simp [ha]
      · rcases hi : am.imaginary with _ | idx <;> simp [hi, ha]
    · exact ⟨rfl, rfl⟩
  have key : ∀ s' : Setup L, s'.charOrder = s.charOrder → s'.kernel = s.kernel → s'.kernel.isSome → s'.charOrder.isSome := by
    intro s' h1 h2
    rw [h1, h2]; exact hs
  have h2r : ∀ (n : ℕ) (src : Fin n → Vec3) N, (allrap2 lstsq src N s).2.charOrder = s.charOrder ∧ (allrap2 lstsq src N s).2.kernel = s.kernel := by
    intro n src N
    unfold allrap2
    rcases ambiPrologue s N with e | ⟨am, k, n⟩ <;> exact ⟨rfl, rfl⟩
  have h1r : ∀ (n : ℕ) (src : Fin n → Vec3) N, (allrap lstsq src N s).2.charOrder = s.charOrder ∧ (allrap lstsq src N s).2.kernel = s.kernel := by
    intro n src N
    unfold allrap
    rcases ambiPrologue s N with e | ⟨am, k, n⟩ <;> exact ⟨rfl, rfl⟩
  have h3r : ∀ (K S : ℕ) (F : Matrix (Fin K) (Fin S) ℝ) N, (allrad lstsq F N s).2.charOrder = s.charOrder ∧ (allrad lstsq F N s).2.kernel = s.kernel := by
    intro K S F N
    unfold allrad
    rcases ambiPrologue s N with e | ⟨am, k, n⟩
    · exact ⟨rfl, rfl⟩
    · dsimp only; split_ifs <;> exact ⟨rfl, rfl⟩
  have h4r : ∀ (K S : ℕ) (F : Matrix (Fin K) (Fin S) ℝ) N, (allrad2 lstsq F N s).2.charOrder = s.charOrder ∧ (allrad2 lstsq F N s).2.kernel = s.kernel := by
    intro K S F N
    unfold allrad2
    rcases ambiPrologue s N with e | ⟨am, k, n⟩
    · exact ⟨rfl, rfl⟩
    · dsimp only; split_ifs
      · exact ⟨rfl, rfl⟩
      · exact ⟨(h2r _ _ _).1, (h2r _ _ _).2⟩
  cases c with
  | vbap p src v r => exact key _ (hvb p src v r).1 (hvb p src v r).2
  | vbip p src v r => exact key _ (hvb 2 src v r).1 (hvb 2 src v r).2
  | pop n a o b =>
    refine key _ ?_ rfl
    change (popTriangles s.toHull n a o b).charOrder = _
    have e1 : ∀ h : Hull L, (popNormal h n).charOrder = h.charOrder := fun h => by cases n <;> rfl
    have e2 : ∀ h : Hull L, (popAperture h a).charOrder = h.charOrder := fun h => by cases a <;> rfl
    have e3 : ∀ h : Hull L, (popOpening h o).charOrder = h.charOrder := fun h => by cases o <;> rfl
    have e4 : ∀ h : Hull L, (popBlacklist h b).charOrder = h.charOrder := fun h => by
      cases b with
      | none => rfl
      | some bl => unfold popBlacklist; dsimp only; split <;> rfl
    rw [popTriangles, e4, e3, e2, e1]
  | setup u i co k =>
    unfold ACall.run ambisonicsSetup
    dsimp only
    rcases setupOrder lstsq s.toHull co with e | n
    · exact hs
    · cases k with
      | none => exact fun _ => rfl
      | some nk =>
        dsimp only
        rcases setupHulls qhull ndesign _ u i nk with e | ⟨am, k⟩ <;> exact fun _ => rfl
  | allrap n src N => exact key _ (h1r n src N).1 (h1r n src N).2
  | allrap2 n src N => exact key _ (h2r n src N).1 (h2r n src N).2
  | allrad K S F N => exact key _ (h3r K S F N).1 (h3r K S F N).2
  | allrad2 K S F N => exact key _ (h4r K S F N).1 (h4r K S F N).2

/-- C40: over every history of calls on a fresh setup, once some `ambisonics_setup()` call has completed there is a default order, and the renderers called
without an order do what they do when called with that one. -/
theorem C40_order {L : ℕ} (qhull : (L : ℕ) → (Fin L → Vec3) → Py (List (Face L))) (lstsq : Mat3 → Mat3)
    (ndesign : ℤ → Option (List Vec3)) (s : Setup L) (h0 : s.ambi = none ∧ s.kernel = none) (cs : List (ACall L))
    (hc : (runAll qhull lstsq ndesign s cs).2) :
    ∃ n : ℕ, (runAll qhull lstsq ndesign s cs).1.charOrder = some n ∧
      ∀ (m K S : ℕ) (src : Fin m → Vec3) (F : Matrix (Fin K) (Fin S) ℝ),
        allrap lstsq src none (runAll qhull lstsq ndesign s cs).1 = allrap lstsq src (some n) (runAll qhull lstsq ndesign s cs).1 ∧
        allrap2 lstsq src none (runAll qhull lstsq ndesign s cs).1 = allrap2 lstsq src (some n) (runAll qhull lstsq ndesign s cs).1 ∧
        allrad lstsq F none (runAll qhull lstsq ndesign s cs).1 = allrad lstsq F (some n) (runAll qhull lstsq ndesign s cs).1 ∧
        allrad2 lstsq F none (runAll qhull lstsq ndesign s cs).1 = allrad2 lstsq F (some n) (runAll qhull lstsq ndesign s cs).1 := by
  have gen : ∀ (cs : List (ACall L)) (s : Setup L), (s.kernel.isSome → s.charOrder.isSome) →
      (runAll qhull lstsq ndesign s cs).1.kernel.isSome → (runAll qhull lstsq ndesign s cs).1.charOrder.isSome := by
    intro cs
    induction cs with
    | nil => intro s hs; exact hs
    | cons c cs ih => intro s hs; exact ih _ (run_order qhull lstsq ndesign s hs c)
  have h1 := gen cs s (by rw [h0.2]; simp) ((C40_history qhull lstsq ndesign s h0 cs).2.2 hc)
  obtain ⟨n, hn⟩ := Option.isSome_iff_exists.1 h1
  refine ⟨n, hn, ?_⟩
  generalize (runAll qhull lstsq ndesign s cs).1 = r at *
  have hp : ambiPrologue r none = ambiPrologue r (some n) := by
    unfold ambiPrologue
    rw [hn]
  intro m K S src F
  refine ⟨?_, ?_, ?_, ?_⟩
  · unfold allrap; rw [hp]
  · unfold allrap2; rw [hp]
  · unfold allrad; rw [hp]
  · unfold allrad2; rw [hp]

theorem setupHulls_ok (qhull : (L : ℕ) → (Fin L → Vec3) → Py (List (Face L))) (nd : ℤ → Option (List Vec3)) {L : ℕ} (h : Hull L)
    (u : Bool) (im : Option (List Vec3)) (nk : ℤ) {im' am vs x f} (h1 : imaginaryPoints h u im = .ok im') (h2 : mkAmbi qhull h im' = .ok am)
    (h3 : Grids.loadNDesign nd (2 * nk) = .ok (vs, x)) (h4 : qhull vs.length (fun i => vs[i]) = .ok f) :
    setupHulls qhull nd h u im nk = .ok (am, ⟨vs.length, fun i => vs[i], nk⟩) := by
  unfold setupHulls
  rw [h1]
  change (mkAmbi qhull h im').bind _ = _
  rw [h2]
  change (Grids.loadNDesign nd (2 * nk)).bind _ = _
  rw [h3]
  change (qhull vs.length fun i => vs[i]).bind _ = _
  rw [h4]
  rfl

/-- `ambisonics_setup(update_hull=False)` completes on the octahedron (with a kernel consisting of its vertices). -/
theorem oct_setup (lstsq : Mat3 → Mat3) :
    (ambisonicsSetup Oct.qhull lstsq (fun _ => some (List.ofFn Oct.pts)) (L := 6) ⟨Oct.hull, none, none⟩ false none (some 1) (some 1)).1
      = .ok () := by
  have hm : mkAmbi Oct.qhull { Oct.hull with charOrder := some 1 } none = .ok ⟨0, Oct.hull, none⟩ := by
    unfold mkAmbi
    have hp : (Fin.append ({ Oct.hull with charOrder := some 1 } : Hull 6).points
        fun i : Fin (Option.getD (none : Option (List Vec3)) []).length => (Option.getD (none : Option (List Vec3)) [])[i]) = Oct.pts := by
      funext l
      exact Fin.append_left _ _ l
    show (mkHull Oct.qhull (Fin.append _ _) 0).bind _ = _
    rw [hp, show mkHull Oct.qhull (L := 6 + (Option.getD (none : Option (List Vec3)) []).length) Oct.pts 0 = _ from Oct.mkHull_eq]
    rfl
  have hl : Grids.loadNDesign (fun _ => some (List.ofFn Oct.pts)) (2 * 1) = .ok (List.ofFn Oct.pts, []) := by
    unfold Grids.loadNDesign Grids.loadNext
    simp
  obtain ⟨f, hq⟩ : ∃ f, Oct.qhull (List.ofFn Oct.pts).length (fun i => (List.ofFn Oct.pts)[i]) = .ok f :=
    ⟨_, dif_pos (by simp)⟩
  have hs : ∃ r, setupHulls Oct.qhull (fun _ => some (List.ofFn Oct.pts)) { Oct.hull with charOrder := some 1 } false none 1 = .ok r := by
    exact ⟨_, setupHulls_ok _ _ _ _ _ _ rfl hm hl hq⟩
  obtain ⟨r, hr⟩ := hs
  unfold ambisonicsSetup setupOrder
  dsimp only
  rw [hr]

/-- C40: a history in which rendering first fails, then `ambisonics_setup()` fails, then it completes. -/
example (lstsq : Mat3 → Mat3) : ((runAll Oct.qhull lstsq (fun _ => some (List.ofFn Oct.pts)) (L := 6) ⟨Oct.hull, none, none⟩
    [.allrap 1 (fun _ => ![1, 0, 0]) (some 1), .setup false none (some 1) none, .setup false none (some 1) (some 1)]).1.ambi.isSome) := by
  rw [(C40_history Oct.qhull lstsq _ _ ⟨rfl, rfl⟩ _).1]
  exact Or.inr (Or.inr (Or.inl (oct_setup lstsq)))

/-- `C40_order`: the same history. -/
example (lstsq : Mat3 → Mat3) := C40_order Oct.qhull lstsq (fun _ => some (List.ofFn Oct.pts)) (L := 6) ⟨Oct.hull, none, none⟩ ⟨rfl, rfl⟩
    [.allrap 1 (fun _ => ![1, 0, 0]) (some 1), .setup false none (some 1) none, .setup false none (some 1) (some 1)]
    (Or.inr (Or.inr (Or.inl (oct_setup lstsq))))

/-! ### C41 -/

theorem shAt_source (N : ℕ) {n : ℕ} (azi zen r : Fin n → ℝ) (hz : ∀ i, zen i ∈ Set.Icc 0 π) (hr : ∀ i, 0 < r i) :
    shAt N (fun i => normalizeSrc (r i • dirVec (azi i) (zen i))) = shMat N azi zen := by
  have h : ∀ i, normalizeSrc (r i • dirVec (azi i) (zen i)) = dirVec (azi i) (zen i) := by
    intro i
    have hn : norm3 (r i • dirVec (azi i) (zen i)) = r i := by
      have h1 := norm3_dirVec (azi i) (zen i)
      unfold norm3 at *
      rw [smul_dotProduct, dotProduct_smul, smul_eq_mul, smul_eq_mul, ← mul_assoc, Real.sqrt_mul (mul_self_nonneg _), h1, mul_one,
        Real.sqrt_mul_self (hr i).le]
    funext c
    unfold normalizeSrc
    rw [hn, Pi.smul_apply, smul_eq_mul, mul_div_cancel_left₀ _ (hr i).ne']
  funext i
  unfold shAt shMat
  dsimp only
  rw [h i]
  exact shVec_congr N (dirOf_zenith _) (hz i) (dirVec_dirOf_dirVec _ _)

/-- The order in use: `N_sph`, by default the characteristic order. -/
def OrderOf {L : ℕ} (s : Setup L) (No : Option ℕ) (N : ℕ) : Prop := No = some N ∨ No = none ∧ s.charOrder = some N

theorem prologue_ok {L : ℕ} {s : Setup L} {am : Ambi L} {k : Kernel} (ha : s.ambi = some am) (hk : s.kernel = some k) {No : Option ℕ}
    {N : ℕ} (hN : OrderOf s No N) : ambiPrologue s No = .ok (am, k, N) := by
  unfold ambiPrologue
  rw [ha, hk]
  rcases hN with h | ⟨h, h'⟩
  · rw [h]
  · rw [h, h']

theorem applyDecoder_ok {S R N : ℕ} (D : Matrix (Fin R) (Fin ((N + 1) ^ 2)) ℝ) (F : Matrix (Fin ((N + 1) ^ 2)) (Fin S) ℝ) :
    applyDecoder D F = .ok (D * F) := by
  unfold applyDecoder
  rw [dif_pos rfl]
  rfl

/-- What `allrap` and `allrad` return, from the same kernel gains. -/
theorem allrap_eq {L n : ℕ} (lstsq : Mat3 → Mat3) (src : Fin n → Vec3) {s : Setup L} {am : Ambi L} {k : Kernel} (ha : s.ambi = some am)
    (hk : s.kernel = some k) {No : Option ℕ} {N : ℕ} (hN : OrderOf s No N) :
    allrap lstsq src No s = ((kernelGains lstsq am k).1.map fun Gk i => (realIdx am).map fun l =>
      ((4 * π / k.J) • (shAt N (fun i => normalizeSrc (src i)) * Matrix.diagonal (taper N) * (shAt N k.points).transpose * Gk)) i l,
      { s with ambi := some (kernelGains lstsq am k).2 }) := by
  unfold allrap
  rw [prologue_ok ha hk hN]

theorem allrad_eq {L S : ℕ} (lstsq : Mat3 → Mat3) {s : Setup L} {am : Ambi L} {k : Kernel} (ha : s.ambi = some am)
    (hk : s.kernel = some k) {No : Option ℕ} {N : ℕ} (hN : OrderOf s No N) (F : Matrix (Fin ((N + 1) ^ 2)) (Fin S) ℝ) :
    allrad lstsq F No s = ((kernelGains lstsq am k).1.map fun Gk => (realIdx am).map fun l =>
      (((4 * π / k.J) • (Gk.transpose * shAt N k.points)) * Matrix.diagonal (taper N) * F) l,
      { s with ambi := some (kernelGains lstsq am k).2 }) := by
  unfold allrad
  rw [prologue_ok ha hk hN]
  dsimp only
  rw [if_neg (not_not.2 (C11_order_square N).symm)]
  rcases (kernelGains lstsq am k).1 with e | Gk
  · rfl
  · refine Prod.ext ?_ rfl
    show (applyDecoder _ F).bind _ = _
    rw [applyDecoder_ok]
    rfl

theorem gain_identity {n J R S Q : ℕ} (c : ℝ) (Ys : Matrix (Fin n) (Fin Q) ℝ) (w : Fin Q → ℝ) (Yk : Matrix (Fin J) (Fin Q) ℝ)
    (Gk : Matrix (Fin J) (Fin R) ℝ) (sig : Matrix (Fin n) (Fin S) ℝ) (l : Fin R) (t : Fin S) :
    ((c • (Gk.transpose * Yk)) * Matrix.diagonal w * (Ys.transpose * sig)) l t
      = ∑ i, (c • (Ys * Matrix.diagonal w * Yk.transpose * Gk)) i l * sig i t := by
  have h : (c • (Gk.transpose * Yk)) * Matrix.diagonal w * (Ys.transpose * sig)
      = (c • (Ys * Matrix.diagonal w * Yk.transpose * Gk)).transpose * sig := by
    rw [Matrix.transpose_smul, Matrix.transpose_mul, Matrix.transpose_mul, Matrix.transpose_mul, Matrix.transpose_transpose,
      Matrix.diagonal_transpose, Matrix.smul_mul, Matrix.smul_mul, Matrix.smul_mul]
    simp only [Matrix.mul_assoc]
  rw [h, Matrix.mul_apply]
  rfl

/-- Kernel gains are the same after they have been computed once. -/
theorem kernelGains_again {L : ℕ} (lstsq : Mat3 → Mat3) (am : Ambi L) (k : Kernel) :
    kernelGains lstsq (kernelGains lstsq am k).2 k = ((kernelGains lstsq am k).1, (kernelGains lstsq am k).2) := by
  have hv : ∀ h : Hull (L + am.M), vbase lstsq { h with invBase := some (vbase lstsq h (Option.getD none h.valid)) } (Option.getD none h.valid)
      = vbase lstsq h (Option.getD none h.valid) := fun h => rfl
  unfold kernelGains vbapHull
  rfl

/-- C41: sources at `r • direction` are encoded with `src_to_sh` and decoded with `allrad`; every loudspeaker gets the sum of the
source signals times the `allrap` gains of the sources. Both calls may be made in either order or repeatedly on the setup. -/
theorem C41_allrad_allrap {L n S : ℕ} (lstsq : Mat3 → Mat3) (s : Setup L) (No : Option ℕ) (N : ℕ) (hN : OrderOf s No N)
    (azi zen r : Fin n → ℝ) (hz : ∀ i, zen i ∈ Set.Icc 0 π) (hr : ∀ i, 0 < r i) (sig : Matrix (Fin n) (Fin S) ℝ)
    (G : Fin n → List ℝ) (s' : Setup L)
    (hG : allrap lstsq (fun i => r i • dirVec (azi i) (zen i)) No s = (.ok G, s')) :
    ∃ out : List (Fin S → ℝ), allrad lstsq (srcToSh sig azi zen N) No s = (.ok out, s') ∧
      allrad lstsq (srcToSh sig azi zen N) No s' = (.ok out, s') ∧ (∀ i, (G i).length = out.length) ∧
      ∀ l t, (out.map fun x => x t)[l]? = if l < out.length then some (∑ i, (G i).getD l 0 * sig i t) else none := by
  rcases ha : s.ambi with _ | am
  · have := ((C40_guard lstsq s (fun i => r i • dirVec (azi i) (zen i)) sig No 2 []).1 (Or.inl ha)).1
    rw [hG] at this; cases this
  rcases hk : s.kernel with _ | k
  · have := ((C40_guard lstsq s (fun i => r i • dirVec (azi i) (zen i)) sig No 2 []).1 (Or.inr hk)).1
    rw [hG] at this; cases this
  rw [allrap_eq lstsq _ ha hk hN] at hG
  rw [Prod.mk.injEq] at hG
  obtain ⟨hG1, rfl⟩ := hG
  have hagain := kernelGains_again lstsq am k
  have hN' : OrderOf ({ s with ambi := some (kernelGains lstsq am k).2 } : Setup L) No N := hN
  rw [allrad_eq lstsq ha hk hN, allrad_eq lstsq (s := { s with ambi := some (kernelGains lstsq am k).2 }) rfl hk hN', hagain]
  rcases hg : (kernelGains lstsq am k).1 with e | Gk
  · rw [hg] at hG1; cases hG1
  · rw [hg] at hG1
    have hG2 := Except.ok.inj hG1
    refine ⟨_, rfl, ?_, fun i => ?_, fun l t => ?_⟩
    · refine Prod.ext ?_ rfl
      obtain ⟨M, h, im⟩ := am
      have e1 : realIdx (kernelGains lstsq ⟨M, h, im⟩ k).2 = realIdx ⟨M, h, im⟩ := by cases im <;> rfl
      refine congrArg Except.ok ?_
      refine congrArg₂ List.map ?_ e1
      funext l
      rfl
    · rw [← hG2]; simp
    · rw [← hG2, shAt_source N azi zen r hz hr]
      simp only [List.getElem?_map, List.length_map]
      by_cases hl : l < (realIdx am).length
      · rw [if_pos hl, List.getElem?_eq_getElem hl]
        simp only [Option.map_some, Option.some.injEq]
        unfold srcToSh
        rw [gain_identity]
        refine Finset.sum_congr rfl fun i _ => ?_
        congr 1
        rw [List.getD_eq_getElem?_getD, List.getElem?_map, List.getElem?_eq_getElem hl]
        rfl
      · rw [if_neg hl, List.getElem?_eq_none (not_lt.1 hl)]; rfl

theorem oct_allrap : ∃ (lstsq : Mat3 → Mat3) (s : Setup 6), OrderOf s none 1 ∧
    ∀ (n : ℕ) (src : Fin n → Vec3), ∃ G s', allrap lstsq src none s = (.ok G, s') := by
  obtain ⟨lstsq, hl⟩ := exists_lstsq3
  refine ⟨lstsq, ⟨{ Oct.hull with charOrder := some 1 }, some ⟨0, Oct.hull, none⟩, some ⟨6, Oct.pts, 1⟩⟩, .inr ⟨rfl, rfl⟩, fun n src => ?_⟩
  obtain ⟨rows, hrows, _⟩ := C29_vbap lstsq hl (p := 2) (by norm_num) Oct.hull (oct_cache lstsq) Oct.inj (List.ofFn Oct.pts)
  rw [allrap_eq lstsq src (am := ⟨0, Oct.hull, none⟩) (k := ⟨6, Oct.pts, 1⟩) rfl rfl (N := 1) (.inr ⟨rfl, rfl⟩)]
  have hk : ∃ Gk, (kernelGains lstsq (L := 6) ⟨0, Oct.hull, none⟩ ⟨6, Oct.pts, 1⟩).1 = .ok Gk := by
    unfold kernelGains
    dsimp only
    rw [show (vbapHull lstsq 2 (List.ofFn Oct.pts) none Oct.hull).1 = .ok rows from hrows]
    exact ⟨_, rfl⟩
  obtain ⟨Gk, hk⟩ := hk
  rw [hk]
  exact ⟨_, _, rfl⟩

/-- C41 on the octahedron: two sources. -/
example (sig : Matrix (Fin 2) (Fin 5) ℝ) : ∃ (lstsq : Mat3 → Mat3) (s s' : Setup 6) (out : List (Fin 5 → ℝ)),
    allrad lstsq (srcToSh sig ![0, 1] ![1, 2] 1) none s = (.ok out, s') := by
  obtain ⟨lstsq, s, hN, h⟩ := oct_allrap
  obtain ⟨G, s', hG⟩ := h 2 fun i => (![3, 4] : Fin 2 → ℝ) i • dirVec ((![0, 1] : Fin 2 → ℝ) i) ((![1, 2] : Fin 2 → ℝ) i)
  have hpi := pi_gt_three
  obtain ⟨out, ho, _⟩ := C41_allrad_allrap lstsq s none 1 hN ![0, 1] ![1, 2] ![3, 4]
    (by intro i; fin_cases i <;> constructor <;> simp <;> linarith) (by intro i; fin_cases i <;> simp) sig G s' hG
  exact ⟨lstsq, s, s', out, ho⟩

/-- C41: `allrad` is linear in the input. -/
theorem C41_linear {L S : ℕ} (lstsq : Mat3 → Mat3) (s : Setup L) (No : Option ℕ) (N : ℕ) (hN : OrderOf s No N)
    (F F' : Matrix (Fin ((N + 1) ^ 2)) (Fin S) ℝ) (c : ℝ) (o o' : List (Fin S → ℝ))
    (h : (allrad lstsq F No s).1 = .ok o) (h' : (allrad lstsq F' No s).1 = .ok o') :
    (allrad lstsq (c • F + F') No s).1 = .ok (List.zipWith (fun x y => c • x + y) o o') := by
  rcases ha : s.ambi with _ | am
  · rw [((C40_guard lstsq s (fun i : Fin 0 => 0) F No 2 []).1 (Or.inl ha)).2.2.1] at h; cases h
  rcases hk : s.kernel with _ | k
  · rw [((C40_guard lstsq s (fun i : Fin 0 => 0) F No 2 []).1 (Or.inr hk)).2.2.1] at h; cases h
  rw [allrad_eq lstsq ha hk hN] at h h' ⊢
  rcases hg : (kernelGains lstsq am k).1 with e | Gk
  · rw [hg] at h; cases h
  · rw [hg] at h h'
    rw [← Except.ok.inj h, ← Except.ok.inj h']
    show Except.ok _ = Except.ok _
    congr 1
    rw [List.zipWith_map, List.zipWith_self]
    refine List.map_congr_left fun l _ => ?_
    funext t
    rw [Matrix.mul_add, Matrix.mul_smul]
    rfl

/-- `C41_linear` on the octahedron: the hypotheses hold for two sound fields of two sources each. -/
example (sig sig' : Matrix (Fin 2) (Fin 5) ℝ) : ∃ (lstsq : Mat3 → Mat3) (s : Setup 6) (o o' : List (Fin 5 → ℝ)),
    (allrad lstsq (srcToSh sig ![0, 1] ![1, 2] 1) none s).1 = .ok o ∧ (allrad lstsq (srcToSh sig' ![0, 1] ![1, 2] 1) none s).1 = .ok o' ∧
    (allrad lstsq ((3 : ℝ) • srcToSh sig ![0, 1] ![1, 2] 1 + srcToSh sig' ![0, 1] ![1, 2] 1) none s).1
      = .ok (List.zipWith (fun x y => (3 : ℝ) • x + y) o o') := by
  obtain ⟨lstsq, s, hN, h⟩ := oct_allrap
  obtain ⟨G, s', hG⟩ := h 2 fun i => (![3, 4] : Fin 2 → ℝ) i • dirVec ((![0, 1] : Fin 2 → ℝ) i) ((![1, 2] : Fin 2 → ℝ) i)
  have hpi := pi_gt_three
  have ho := fun sig : Matrix (Fin 2) (Fin 5) ℝ => C41_allrad_allrap lstsq s none 1 hN ![0, 1] ![1, 2] ![3, 4]
    (by intro i; fin_cases i <;> constructor <;> simp <;> linarith) (by intro i; fin_cases i <;> simp) sig G s' hG
  obtain ⟨o, ho1, -⟩ := ho sig
  obtain ⟨o', ho2, -⟩ := ho sig'
  exact ⟨lstsq, s, o, o', by rw [ho1], by rw [ho2], C41_linear lstsq s none 1 hN _ _ 3 o o' (by rw [ho1]) (by rw [ho2])⟩

/-- C41: an input whose number of channels does not have order `N` is rejected. -/
theorem C41_reject {L K S : ℕ} (lstsq : Mat3 → Mat3) (s : Setup L) (am : Ambi L) (k : Kernel) (ha : s.ambi = some am)
    (hk : s.kernel = some k) (No : Option ℕ) (N : ℕ) (hN : OrderOf s No N)
    (F : Matrix (Fin K) (Fin S) ℝ) (h : shOrder K ≠ N) : allrad lstsq F No s = (.error .assertionError, s) := by
  unfold allrad
  rw [prologue_ok ha hk hN]
  dsimp only
  rw [if_pos (Ne.symm h)]

/-- `C41_reject`: nine channels at order 1. -/
example (lstsq : Mat3 → Mat3) (F : Matrix (Fin 9) (Fin 5) ℝ) :
    allrad lstsq F (some 1) (⟨Oct.hull, some ⟨0, Oct.hull, none⟩, some ⟨6, Oct.pts, 1⟩⟩ : Setup 6)
      = (.error .assertionError, ⟨Oct.hull, some ⟨0, Oct.hull, none⟩, some ⟨6, Oct.pts, 1⟩⟩) := by
  refine C41_reject lstsq _ _ _ rfl rfl (some 1) 1 (.inl rfl) F ?_
  have h : shOrder 9 = (2 : ℕ) := C11_order_square 2
  rw [h]
  norm_num

theorem finRange_add (L M : ℕ) : List.finRange (L + M)
    = (List.finRange L).map (Fin.castAdd M) ++ (List.finRange M).map (Fin.natAdd L) := by
  rw [← List.ofFn_id, List.ofFn_add, ← List.ofFn_id, ← List.ofFn_id, List.map_ofFn, List.map_ofFn]
  rfl

/-- C41: after `ambisonics_setup()`, the outputs belong to the loudspeakers of the setup, in order; the imaginary ones are dropped. -/
theorem C41_imaginary {L : ℕ} (qhull : (L : ℕ) → (Fin L → Vec3) → Py (List (Face L))) (lstsq : Mat3 → Mat3)
    (ndesign : ℤ → Option (List Vec3)) (s : Setup L) (u : Bool) (im : Option (List Vec3)) (c : Option ℕ) (k : Option ℤ)
    (h : (ambisonicsSetup qhull lstsq ndesign s u im c k).1 = .ok ()) :
    ∃ am, (ambisonicsSetup qhull lstsq ndesign s u im c k).2.ambi = some am ∧
      realIdx am = (List.finRange L).map (Fin.castAdd am.M) ∧ (u = false → am.M = 0) := by
  have hmk : ∀ (im' : Option (List Vec3)) (am : Ambi L), mkAmbi qhull s.toHull im' = .ok am →
      realIdx am = (List.finRange L).map (Fin.castAdd am.M) ∧ (im' = none → am.M = 0) := by
    intro im' am hm
    unfold mkAmbi at hm
    dsimp only at hm
    rcases hq : mkHull qhull (Fin.append s.points fun i : Fin (im'.getD []).length => (im'.getD [])[i]) 0 with e | hh
    · rw [hq] at hm; cases hm
    · rw [hq] at hm
      have := Except.ok.inj hm
      subst this
      clear hm hq
      cases im' with
      | none =>
        refine ⟨?_, fun _ => rfl⟩
        show List.finRange (L + 0) = (List.finRange L).map (Fin.castAdd 0)
        have : Fin.castAdd (n := L) 0 = id := by funext i; rfl
        rw [this, List.map_id]
        rfl
      | some vs =>
        refine ⟨?_, fun h => by cases h⟩
        show List.filter _ (List.finRange (L + vs.length)) = (List.finRange L).map (Fin.castAdd vs.length)
        refine (congrArg (List.filter _) (finRange_add L vs.length)).trans ?_
        · rw [List.filter_append, List.filter_eq_self.2, List.filter_eq_nil_iff.2, List.append_nil]
          · intro x hx; simpa using hx
          · intro x hx
            obtain ⟨i, _, rfl⟩ := List.mem_map.1 hx
            simp only [List.mem_map, List.mem_finRange, true_and, decide_eq_true_eq, not_exists]
            intro j hj
            have := congrArg Fin.val hj
            simp at this; omega
  unfold ambisonicsSetup at h ⊢
  dsimp only at h ⊢
  rcases ho : setupOrder lstsq s.toHull c with e | n
  · rw [ho] at h; cases h
  · rw [ho] at h
    cases k with
    | none => cases h
    | some nk =>
      dsimp only at h ⊢
      rcases hr : setupHulls qhull ndesign { s.toHull with charOrder := some n } u im nk with e | ⟨am, ke⟩
      · rw [hr] at h; cases h
      · refine ⟨am, rfl, ?_⟩
        unfold setupHulls at hr
        dsimp only at hr
        rcases hi : imaginaryPoints { s.toHull with charOrder := some n } u im with e | im'
        · rw [hi] at hr; cases hr
        · rw [hi] at hr
          rcases hm : mkAmbi qhull { s.toHull with charOrder := some n } im' with e | am'
          · change Except.bind (mkAmbi qhull { s.toHull with charOrder := some n } im') _ = _ at hr
            rw [hm] at hr; cases hr
          · change Except.bind (mkAmbi qhull { s.toHull with charOrder := some n } im') _ = _ at hr
            rw [hm] at hr
            change Except.bind (Grids.loadNDesign ndesign (2 * nk)) _ = _ at hr
            rcases hl : Grids.loadNDesign ndesign (2 * nk) with e | ⟨vs, x⟩
            · rw [hl] at hr; cases hr
            · rw [hl] at hr
              change Except.bind (qhull vs.length _) _ = _ at hr
              rcases hq : qhull vs.length (fun i => vs[i]) with e | q
              · rw [hq] at hr; cases hr
              · rw [hq] at hr
                have h1 : am' = am := congrArg Prod.fst (Except.ok.inj hr)
                subst h1
                refine ⟨(hmk im' am' hm).1, fun hu => (hmk im' am' hm).2 ?_⟩
                rw [hu] at hi
                exact (Except.ok.inj hi).symm

/-- `C41_imaginary`: the octahedron without imaginary loudspeakers. -/
example (lstsq : Mat3 → Mat3) : ∃ am, (ambisonicsSetup Oct.qhull lstsq (fun _ => some (List.ofFn Oct.pts)) (L := 6) ⟨Oct.hull, none, none⟩ false none (some 1) (some 1)).2.ambi
      = some am ∧ realIdx am = (List.finRange 6).map (Fin.castAdd am.M) ∧ am.M = 0 := by
  obtain ⟨am, h1, h2, h3⟩ := C41_imaginary Oct.qhull lstsq _ (⟨Oct.hull, none, none⟩ : Setup 6) false none (some 1) (some 1) (oct_setup lstsq)
  exact ⟨am, h1, h2, h3 rfl⟩

end Verif.Props
