import Verif.Props.Vbap
import Verif.Props.VbapHistory
import Verif.Props.RetainOutside
import Verif.Props.Hrirs
import Verif.Model.Parsa
import Verif.Model.Signals
import Verif.Model.SphCore
import Mathlib.Tactic

/-!
**C148** Directions are treated one by one: sources, look directions and grid points may be selected, repeated, reordered or split between several calls.
-/

namespace Verif.Props

open Real Matrix Verif.Utils Verif.Decoder Verif.Sph Verif.Sig Verif.Parsa

theorem mapM_append {α β : Type} (f : α → Py β) (a b : List α) : (a ++ b).mapM f = (a.mapM f).bind fun x => (b.mapM f).map fun y => x ++ y := by
  induction a with
  | nil =>
    show b.mapM f = (b.mapM f).map fun y => y
    cases b.mapM f <;> rfl
  | cons x a ih =>
    rw [List.cons_append, List.mapM_cons, List.mapM_cons, ih]
    cases f x with
    | error e => rfl
    | ok u =>
      cases a.mapM f with
      | error e => rfl
      | ok v => cases b.mapM f <;> rfl

theorem mapM_select {α β : Type} (f : α → Py β) {n : ℕ} (src : Fin n → α) {rows : List β} (h : (List.ofFn src).mapM f = .ok rows) (ix : List (Fin n)) (d : β) :
    (ix.map src).mapM f = .ok (ix.map fun i : Fin n => rows.getD (i : ℕ) d) := by
  have hrow : ∀ i : Fin n, f (src i) = .ok (rows.getD i d) := by
    intro i
    have hl : (List.ofFn src).length = n := List.length_ofFn
    have key : ∀ (l : List α) (r : List β), l.mapM f = .ok r → ∀ (j : ℕ) (hj : j < l.length), f l[j] = .ok (r.getD j d) := by
      intro l
      induction l with
      | nil => intro r _ j hj; simp at hj
      | cons a l ih =>
        intro r hr j hj
        rw [List.mapM_cons] at hr
        cases ha : f a with
        | error e => rw [ha] at hr; cases hr
        | ok u =>
          cases hm : l.mapM f with
          | error e => rw [ha, hm] at hr; cases hr
          | ok v =>
            rw [ha, hm] at hr
            cases hr
            cases j with
            | zero => simpa using ha
            | succ j => simpa using ih v hm j (by simpa using hj)
    have := key _ _ h i (by rw [hl]; exact i.2)
    simpa using this
  induction ix with
  | nil => rfl
  | cons i ix ih => rw [List.map_cons, List.mapM_cons, hrow i, ih]; rfl

/-! #### VBAP and VBIP -/

theorem vbase_stored {L : ℕ} (lstsq : Mat3 → Mat3) (h : Hull L) (valid : List (Face L)) : vbase lstsq { h with invBase := some (vbase lstsq h valid) } valid = vbase lstsq h valid := rfl

theorem vbapHull_split {L : ℕ} (lstsq : Mat3 → Mat3) (p : ℝ) (a b : List Vec3) (v : Option (List (Face L))) (h : Hull L) :
    vbapHull lstsq p (a ++ b) v h = ((vbapHull lstsq p a v h).1.bind fun x => (vbapHull lstsq p b v (vbapHull lstsq p a v h).2).1.map fun y => x ++ y,
      (vbapHull lstsq p b v (vbapHull lstsq p a v h).2).2) := by
  unfold vbapHull
  simp only [vbapSerial, mapM_append]
  have hv : ∀ h' : Hull L, h'.invBase = some (vbase lstsq h (v.getD h.valid)) → ∀ w, vbase lstsq h' w = vbase lstsq h (v.getD h.valid) := by
    intro h' hi w
    rw [vbase, hi]
  rw [hv { h with invBase := some (vbase lstsq h (v.getD h.valid)) } rfl]
  refine Prod.ext ?_ rfl
  simp only
  cases a.mapM (vbapRow (v.getD h.valid) (vbase lstsq h (v.getD h.valid)) p) with
  | error e => rfl
  | ok x =>
    cases b.mapM (vbapRow (v.getD h.valid) (vbase lstsq h (v.getD h.valid)) p) with
    | error e => rfl
    | ok y => simp [Except.map, Except.bind]

theorem vbapHull_select {L n : ℕ} (lstsq : Mat3 → Mat3) (p : ℝ) (src : Fin n → Vec3) (v : Option (List (Face L))) (h : Hull L) (ix : List (Fin n)) (rows : List (Fin L → ℝ))
    (hr : (vbapHull lstsq p (List.ofFn src) v h).1 = .ok rows) :
    vbapHull lstsq p (ix.map src) v h = (.ok (ix.map fun i : Fin n => rows.getD (i : ℕ) 0), (vbapHull lstsq p (List.ofFn src) v h).2) := by
  unfold vbapHull at hr ⊢
  simp only [vbapSerial] at hr ⊢
  obtain ⟨f, hf⟩ : ∃ f, f = vbapRow (v.getD h.valid) (vbase lstsq h (v.getD h.valid)) p := ⟨_, rfl⟩
  rw [← hf] at hr ⊢
  cases hm : (List.ofFn src).mapM f with
  | error e => rw [hm] at hr; cases hr
  | ok r =>
    rw [hm] at hr
    cases hr
    rw [mapM_select f src hm ix 0]
    refine Prod.ext ?_ rfl
    simp only [Except.map, List.map_map, Except.ok.injEq]
    refine List.map_congr_left fun i _ => ?_
    simp only [Function.comp]
    rw [List.getD_eq_getElem?_getD, List.getD_eq_getElem?_getD, List.getElem?_map]
    cases r[(i : ℕ)]? with
    | some x => rfl
    | none => funext l; simp

theorem ofFn_getD {α : Type} {L : ℕ} (f : (Fin L → ℝ) → List α) (rows : List (Fin L → ℝ)) {n : ℕ} (hn : rows.length = n) (i : Fin n) :
    (rows.map f).getD i [] = f (rows.getD i 0) := by
  have hi : (i : ℕ) < rows.length := hn ▸ i.2
  rw [List.getD_eq_getElem _ _ (by simpa using hi), List.getD_eq_getElem _ _ hi, List.getElem_map]

theorem vbapHull_rows {L : ℕ} (lstsq : Mat3 → Mat3) (p : ℝ) (src : List Vec3) (v : Option (List (Face L))) (h : Hull L) (rows : List (Fin L → ℝ))
    (hr : (vbapHull lstsq p src v h).1 = .ok rows) : rows.length = src.length := by
  unfold vbapHull at hr
  simp only [vbapSerial] at hr
  have key : ∀ (f : Vec3 → Py (Fin L → ℝ)) (l : List Vec3) (r : List (Fin L → ℝ)), l.mapM f = .ok r → r.length = l.length := by
    intro f l
    induction l with
    | nil => intro r h; cases h; rfl
    | cons a l ih =>
      intro r h
      rw [List.mapM_cons] at h
      cases ha : f a with
      | error e => rw [ha] at h; cases h
      | ok u =>
        cases hm : l.mapM f with
        | error e => rw [ha, hm] at h; cases h
        | ok w => rw [ha, hm] at h; cases h; simp [ih w hm]
  cases hm : src.mapM (vbapRow (v.getD h.valid) (vbase lstsq h (v.getD h.valid)) p) with
  | error e => rw [hm] at hr; cases hr
  | ok r => rw [hm] at hr; cases hr; simpa using key _ _ _ hm

theorem vbap_select {L n : ℕ} (lstsq : Mat3 → Mat3) (p : ℝ) (src : Fin n → Vec3) (v : Option (List (Face L))) (retain : Bool) (s : Setup L) (ix : List (Fin n))
    (rows : List (List ℝ)) (h : (vbap lstsq p (List.ofFn src) v retain s).1 = .ok rows) :
    rows.length = n ∧ vbap lstsq p (ix.map src) v retain s = (.ok (ix.map fun i : Fin n => rows.getD (i : ℕ) []), (vbap lstsq p (List.ofFn src) v retain s).2) := by
  unfold vbap at h ⊢
  cases retain with
  | false =>
    simp only [Bool.false_eq_true, if_false] at h ⊢
    cases hr : (vbapHull lstsq p (List.ofFn src) v s.toHull).1 with
    | error e => rw [hr] at h; cases h
    | ok r =>
      have hl := vbapHull_rows lstsq p _ v _ r hr
      rw [List.length_ofFn] at hl
      rw [hr] at h
      cases h
      refine ⟨by simpa using hl, ?_⟩
      rw [vbapHull_select lstsq p src v _ ix r hr]
      refine Prod.ext ?_ rfl
      simp only [Except.map, List.map_map, Except.ok.injEq]
      exact List.map_congr_left fun i _ => (ofFn_getD _ r hl i).symm
  | true =>
    simp only [if_true] at h ⊢
    by_cases hv : v.isSome = true
    · simp only [hv, if_true] at h; cases h
    · simp only [hv, Bool.false_eq_true, if_false] at h ⊢
      cases hs : s.ambi with
      | none => simp only [hs] at h; cases h
      | some am =>
        cases hi : am.imaginary with
        | none => simp only [hs, hi] at h; cases h
        | some idx =>
          simp only [hs, hi] at h ⊢
          cases hr : (vbapHull lstsq p (List.ofFn src) none am.hull).1 with
          | error e => rw [hr] at h; cases h
          | ok r =>
            have hl := vbapHull_rows lstsq p _ none _ r hr
            rw [List.length_ofFn] at hl
            rw [hr] at h
            cases h
            refine ⟨by simpa using hl, ?_⟩
            rw [vbapHull_select lstsq p src none _ ix r hr]
            refine Prod.ext ?_ rfl
            simp only [Except.map, List.map_map, Except.ok.injEq]
            exact List.map_congr_left fun i _ => (ofFn_getD (fun row => npDelete row idx) r hl i).symm

theorem vbap_split {L : ℕ} (lstsq : Mat3 → Mat3) (p : ℝ) (a b : List Vec3) (v : Option (List (Face L))) (retain : Bool) (s : Setup L) :
    vbap lstsq p (a ++ b) v retain s = ((vbap lstsq p a v retain s).1.bind fun x => (vbap lstsq p b v retain (vbap lstsq p a v retain s).2).1.map fun y => x ++ y,
      (vbap lstsq p b v retain (vbap lstsq p a v retain s).2).2) := by
  unfold vbap
  cases retain with
  | false =>
    simp only [Bool.false_eq_true, if_false]
    rw [vbapHull_split]
    refine Prod.ext ?_ rfl
    simp only
    cases (vbapHull lstsq p a v s.toHull).1 with
    | error e => rfl
    | ok x =>
      cases (vbapHull lstsq p b v (vbapHull lstsq p a v s.toHull).2).1 with
      | error e => rfl
      | ok y => simp [Except.map, Except.bind]
  | true =>
    simp only [if_true]
    by_cases hv : v.isSome = true
    · simp only [hv, if_true]; rfl
    · simp only [hv, Bool.false_eq_true, if_false]
      cases hs : s.ambi with
      | none => simp only [hs]; rfl
      | some am =>
        cases hi : am.imaginary with
        | none => simp only [hs, hi]; rfl
        | some idx =>
          simp only [hi]
          rw [vbapHull_split]
          refine Prod.ext ?_ rfl
          simp only
          cases (vbapHull lstsq p a none am.hull).1 with
          | error e => rfl
          | ok x =>
            cases (vbapHull lstsq p b none (vbapHull lstsq p a none am.hull).2).1 with
            | error e => rfl
            | ok y => simp [Except.map, Except.bind]

/-- **C148** Panning some sources in one call and the others in the next one, on the setup the first call left behind, gives the gains and the setup of a single call; it raises when one of
the two calls raises. -/
theorem C148_split {L : ℕ} (lstsq : Mat3 → Mat3) (p : ℝ) (a b : List Vec3) (v : Option (List (Face L))) (retain : Bool) (s : Setup L) :
    vbap lstsq p (a ++ b) v retain s = ((vbap lstsq p a v retain s).1.bind fun x => (vbap lstsq p b v retain (vbap lstsq p a v retain s).2).1.map fun y => x ++ y,
      (vbap lstsq p b v retain (vbap lstsq p a v retain s).2).2) ∧
    vbip lstsq p (a ++ b) v retain s = ((vbip lstsq p a v retain s).1.bind fun x => (vbip lstsq p b v retain (vbip lstsq p a v retain s).2).1.map fun y => x ++ y,
      (vbip lstsq p b v retain (vbip lstsq p a v retain s).2).2) := by
  refine ⟨vbap_split lstsq p a b v retain s, ?_⟩
  unfold vbip
  simp only
  rw [vbap_split]
  refine Prod.ext ?_ rfl
  simp only
  cases (vbap lstsq 2 a v retain s).1 with
  | error e => rfl
  | ok x =>
    cases (vbap lstsq 2 b v retain (vbap lstsq 2 a v retain s).2).1 with
    | error e => rfl
    | ok y => simp [Except.map, Except.bind]

/-- **C148** Sources selected, repeated or reordered get the rows selected, repeated or reordered. -/
theorem C148_select {L n : ℕ} (lstsq : Mat3 → Mat3) (p : ℝ) (src : Fin n → Vec3) (v : Option (List (Face L))) (retain : Bool) (s s' : Setup L) (ix : List (Fin n)) :
    (∀ rows, vbap lstsq p (List.ofFn src) v retain s = (.ok rows, s') → vbap lstsq p (ix.map src) v retain s = (.ok (ix.map fun i : Fin n => rows.getD (i : ℕ) []), s')) ∧
    ∀ rows, vbip lstsq p (List.ofFn src) v retain s = (.ok rows, s') → vbip lstsq p (ix.map src) v retain s = (.ok (ix.map fun i : Fin n => rows.getD (i : ℕ) []), s') := by
  refine ⟨fun rows h => ?_, fun rows h => ?_⟩
  · have h1 : (vbap lstsq p (List.ofFn src) v retain s).1 = .ok rows := by rw [h]
    rw [(vbap_select lstsq p src v retain s ix rows h1).2, h]
  · unfold vbip at h ⊢
    simp only [Prod.mk.injEq] at h
    cases hr : (vbap lstsq 2 (List.ofFn src) v retain s).1 with
    | error e => rw [hr] at h; cases h.1
    | ok r =>
      obtain ⟨hl, hs⟩ := vbap_select lstsq 2 src v retain s ix r hr
      rw [hr] at h
      have h1 : rows = r.map (vbipRow p) := by cases h.1; rfl
      subst h1
      simp only [hs, h.2]
      refine Prod.ext ?_ rfl
      simp only [Except.map, List.map_map, Except.ok.injEq]
      refine List.map_congr_left fun i _ => ?_
      have hi : (i : ℕ) < r.length := hl ▸ i.2
      simp only [Function.comp]
      rw [List.getD_eq_getElem r _ hi, List.getD_eq_getElem _ _ (by simpa using hi), List.getElem_map]

/-- **C148** The same with worker processes: however many there are and however they are scheduled, in the single call and in the two. -/
theorem C148_jobs {L : ℕ} (valid : List (Face L)) (invs : List Mat3) (p : ℝ) (a b : List Vec3) (j j₁ j₂ : ℤ) (hj : 1 ≤ j) (hj₁ : 1 ≤ j₁) (hj₂ : 1 ≤ j₂)
    (out out₁ out₂ : Py (List (Fin L → ℝ))) (h : VbapOutcome valid invs p (a ++ b) j out) (h₁ : VbapOutcome valid invs p a j₁ out₁) (h₂ : VbapOutcome valid invs p b j₂ out₂) :
    out = out₁.bind fun x => out₂.map fun y => x ++ y := by
  rw [(C31_schedule_independent valid invs p _ j hj out).1 h, (C31_schedule_independent valid invs p _ j₁ hj₁ out₁).1 h₁,
    (C31_schedule_independent valid invs p _ j₂ hj₂ out₂).1 h₂]
  exact mapM_append _ _ _

/-! #### Ambisonic panning -/

theorem kernelGains_stored {L : ℕ} (lstsq : Mat3 → Mat3) (am : Ambi L) (k : Kernel) :
    kernelGains lstsq (kernelGains lstsq am k).2 k = kernelGains lstsq am k := rfl

theorem realIdx_stored {L : ℕ} (lstsq : Mat3 → Mat3) (am : Ambi L) (k : Kernel) : realIdx (kernelGains lstsq am k).2 = realIdx am := by
  unfold realIdx
  cases h : am.imaginary with
  | none =>
    have h' : (kernelGains lstsq am k).2.imaginary = none := h
    rw [h']; rfl
  | some idx =>
    have h' : (kernelGains lstsq am k).2.imaginary = some idx := h
    rw [h']; rfl

/-- **C148** `allrap` and `allrap2` of selected, repeated or reordered sources. -/
theorem C148_allrap {L m n : ℕ} (lstsq : Mat3 → Mat3) (src : Fin n → Vec3) (N : Option ℕ) (s : Setup L) (τ : Fin m → Fin n) :
    (allrap lstsq (src ∘ τ) N s = ((allrap lstsq src N s).1.map (· ∘ τ), (allrap lstsq src N s).2) ∧
      allrap lstsq (src ∘ τ) N (allrap lstsq src N s).2 = ((allrap lstsq src N s).1.map (· ∘ τ), (allrap lstsq src N s).2)) ∧
    (allrap2 lstsq (src ∘ τ) N s = ((allrap2 lstsq src N s).1.map (· ∘ τ), (allrap2 lstsq src N s).2) ∧
      allrap2 lstsq (src ∘ τ) N (allrap2 lstsq src N s).2 = ((allrap2 lstsq src N s).1.map (· ∘ τ), (allrap2 lstsq src N s).2)) := by
  have hp : ∀ am k N', ambiPrologue s N = .ok (am, k, N') → ambiPrologue { s with ambi := some (kernelGains lstsq am k).2 } N = .ok ((kernelGains lstsq am k).2, k, N') := by
    intro am k N' h
    unfold ambiPrologue at h ⊢
    cases ha : s.ambi with
    | none => rw [ha] at h; cases h
    | some am' =>
      cases hk : s.kernel with
      | none => rw [ha, hk] at h; cases h
      | some k' =>
        rw [ha, hk] at h
        cases N with
        | some n => cases h; simp only [hk]
        | none =>
          cases hc : s.charOrder with
          | none => simp only [hc] at h; cases h
          | some c => simp only [hc] at h; cases h; simp only [hk, hc]
  refine ⟨⟨?_, ?_⟩, ?_, ?_⟩
  · unfold allrap
    cases h : ambiPrologue s N with
    | error e => rfl
    | ok r => obtain ⟨am, k, N'⟩ := r; cases hg : (kernelGains lstsq am k).1 <;> simp only [hg] <;> rfl
  · unfold allrap
    cases h : ambiPrologue s N with
    | error e => simp only [h]; rfl
    | ok r =>
      obtain ⟨am, k, N'⟩ := r
      simp only [hp am k N' h]
      change ((kernelGains lstsq am k).1.map _, _) = (((kernelGains lstsq am k).1.map _).map _, _)
      refine Prod.ext ?_ rfl
      cases hg : (kernelGains lstsq am k).1 with
      | error e => rfl
      | ok G => exact congrArg Except.ok (funext fun i => congrArg (List.map _) (realIdx_stored lstsq am k))
  · unfold allrap2
    cases h : ambiPrologue s N with
    | error e => rfl
    | ok r => obtain ⟨am, k, N'⟩ := r; cases hg : (kernelGains lstsq am k).1 <;> simp only [hg] <;> rfl
  · unfold allrap2
    cases h : ambiPrologue s N with
    | error e => simp only [h]; rfl
    | ok r =>
      obtain ⟨am, k, N'⟩ := r
      simp only [hp am k N' h]
      change ((kernelGains lstsq am k).1.map _, _) = (((kernelGains lstsq am k).1.map _).map _, _)
      refine Prod.ext ?_ rfl
      cases hg : (kernelGains lstsq am k).1 with
      | error e => rfl
      | ok G => exact congrArg Except.ok (funext fun i => congrArg (List.map _) (realIdx_stored lstsq am k))

/-! #### directions -/

/-- **C148** Spherical harmonics, encoding patterns and evaluation at selected, repeated or reordered directions. -/
theorem C148_harmonics {m n K S : ℕ} (N : ℕ) (azi zen : Fin n → ℝ) (τ : Fin m → Fin n) (F : Matrix (Fin K) (Fin S) ℝ) (No : Option ℕ) (p : Pattern) :
    shMat N (azi ∘ τ) (zen ∘ τ) = (shMat N azi zen).submatrix τ id ∧
    inverseSht F (azi ∘ τ) (zen ∘ τ) No = (inverseSht F azi zen No).map (fun a => a.submatrix τ id) ∧
    shBeamformerFromPattern p N (azi ∘ τ) (zen ∘ τ) = (shBeamformerFromPattern p N azi zen).map (fun a => a.submatrix τ id) := by
  refine ⟨rfl, ?_, ?_⟩
  · unfold inverseSht
    by_cases h0 : No = none ∧ K = 0
    · rw [if_pos h0, if_pos h0]; rfl
    · rw [if_neg h0, if_neg h0]
      have key : ∀ N' : ℕ, (if h : (N' + 1) ^ 2 ≤ K then (.ok (shMat N' (azi ∘ τ) (zen ∘ τ) * F.submatrix (Fin.castLE h) id) : Py (Matrix (Fin m) (Fin S) ℝ)) else .error .valueError) =
          (if h : (N' + 1) ^ 2 ≤ K then (.ok (shMat N' azi zen * F.submatrix (Fin.castLE h) id) : Py (Matrix (Fin n) (Fin S) ℝ)) else .error .valueError).map
            fun a => a.submatrix τ id := by
        intro N'
        by_cases h : (N' + 1) ^ 2 ≤ K
        · rw [dif_pos h, dif_pos h]; rfl
        · rw [dif_neg h, dif_neg h]; rfl
      cases No with
      | none => exact key _
      | some N' => exact key _
  · unfold shBeamformerFromPattern
    cases patternWeights p N with
    | error e => rfl
    | ok c =>
      change (if _ then _ else _) = Except.map _ (if _ then _ else _)
      split <;> rfl

/-- **C148** MUSIC and MVDR at selected, repeated or reordered look directions. -/
theorem C148_analysis (eigh : (n : ℕ) → Matrix (Fin n) (Fin n) ℝ → (Fin n → ℝ) × Matrix (Fin n) (Fin n) ℝ) {L M m n : ℕ} (S : Matrix (Fin L) (Fin M) ℝ) (k : ℤ)
    (azi zen : Fin n → ℝ) (τ : Fin m → Fin n) :
    shMusic eigh S k (azi ∘ τ) (zen ∘ τ) = (shMusic eigh S k azi zen).map (· ∘ τ) ∧
    shMvdr S (azi ∘ τ) (zen ∘ τ) = (shMvdr S azi zen).map (fun a => a.submatrix τ id) := by
  have hst : steerMat L (azi ∘ τ) (zen ∘ τ) = (steerMat L azi zen).map fun Y => Y.submatrix τ id := by
    unfold steerMat
    simp only
    split <;> rfl
  refine ⟨?_, ?_⟩
  · unfold shMusic
    split
    · rw [hst]
      cases steerMat L azi zen <;> rfl
    · rfl
  · unfold shMvdr
    split
    · rw [hst]
      cases npInv (S.submatrix id (Fin.cast _)) with
      | error e => rfl
      | ok Si =>
        change ((steerMat L azi zen).map _).map _ = ((steerMat L azi zen).map _).map _
        cases steerMat L azi zen with
        | error e => rfl
        | ok Y =>
          refine congrArg Except.ok ?_
          ext i q
          simp only [Matrix.submatrix_apply, Matrix.mul_apply, Matrix.transpose_apply, id]
          rfl
    · rfl

/-- **C148** Nearest grid directions of two groups of directions. -/
theorem C148_nearest (h : HRIRs) (a z a' z' : List ℝ) (h1 : a.length = z.length) (h2 : a'.length = z'.length) (i i' : NDArray ℕ)
    (hi : h.nearestIdx ⟨[a.length], a⟩ ⟨[z.length], z⟩ = .ok i) (hi' : h.nearestIdx ⟨[a'.length], a'⟩ ⟨[z'.length], z'⟩ = .ok i') :
    ∃ j, h.nearestIdx ⟨[(a ++ a').length], a ++ a'⟩ ⟨[(z ++ z').length], z ++ z'⟩ = .ok j ∧ j.data = i.data ++ i'.data := by
  have key : ∀ a z : List ℝ, a.length = z.length → h.nearestIdx ⟨[a.length], a⟩ ⟨[z.length], z⟩ =
      ((a.zip z).mapM fun d => h.nearestOne d.1 d.2).map fun is => NDArray.squeeze { shape := [is.length], data := is } := by
    intro a z hl
    have h1 : ∀ x : List ℝ, ∃ sh, asarray1d ⟨[x.length], x⟩ = .ok ⟨sh, x⟩ := by
      intro x
      unfold asarray1d NDArray.squeeze
      by_cases hx : x.length = 1
      · exact ⟨[1], by simp [hx]⟩
      · exact ⟨[x.length], by simp [hx]⟩
    obtain ⟨sa, ha⟩ := h1 a
    obtain ⟨sz, hz⟩ := h1 z
    unfold HRIRs.nearestIdx
    rw [ha, hz]
    change (Sig.pairDirs a z).bind _ = _
    unfold Sig.pairDirs
    rw [if_pos hl]
    rfl
  rw [key a z h1] at hi
  rw [key a' z' h2] at hi'
  rw [key _ _ (by simp [h1, h2]), List.zip_append h1, mapM_append]
  cases hm : (a.zip z).mapM fun d => h.nearestOne d.1 d.2 with
  | error e => rw [hm] at hi; cases hi
  | ok x =>
    cases hm' : (a'.zip z').mapM fun d => h.nearestOne d.1 d.2 with
    | error e => rw [hm'] at hi'; cases hi'
    | ok y =>
      rw [hm] at hi; rw [hm'] at hi'
      cases hi; cases hi'
      exact ⟨_, rfl, rfl⟩

/-! #### examples -/

/-- `C148_select`, `C148_split`: two sources in the octahedron, then the second, the first and the second one again. -/
example : ∃ (lstsq : Mat3 → Mat3) (a b : List ℝ) (s' : Setup 6), vbap lstsq 2 [![1, 2, 3], ![1, 0, 0]] none false ⟨Oct.hull, none, none⟩ = (.ok [a, b], s') ∧
    vbap lstsq 2 [![1, 0, 0], ![1, 2, 3], ![1, 0, 0]] none false ⟨Oct.hull, none, none⟩ = (.ok [b, a, b], s') := by
  obtain ⟨lstsq, hl⟩ := exists_lstsq3
  obtain ⟨rows, h1, h2, -⟩ := C30_each lstsq (p := 2) (by norm_num) Oct.hull (oct_cache lstsq) Oct.inj [![1, 2, 3], ![1, 0, 0]]
  obtain ⟨u, w, rfl⟩ := List.length_eq_two.1 (h2.trans rfl)
  have h : vbap lstsq 2 (List.ofFn ![(![1, 2, 3] : Vec3), ![1, 0, 0]]) none false ⟨Oct.hull, none, none⟩ =
      (.ok [List.ofFn u, List.ofFn w], { toHull := (vbapHull lstsq 2 [![1, 2, 3], ![1, 0, 0]] none Oct.hull).2, ambi := none, kernel := none }) := by
    unfold vbap
    simp only [Bool.false_eq_true, if_false]
    refine Prod.ext ?_ rfl
    change ((vbapHull lstsq 2 [![1, 2, 3], ![1, 0, 0]] none Oct.hull).1.map _) = _
    rw [h1]; rfl
  exact ⟨lstsq, _, _, _, h, (C148_select lstsq 2 ![(![1, 2, 3] : Vec3), ![1, 0, 0]] none false _ _ [1, 0, 1]).1 _ h⟩

/-- `C148_jobs`: eleven sources in one call with four workers, six and five sources in two serial calls. -/
example (invs : List Mat3) (a b : List Vec3) (_ : a.length = 6) (_ : b.length = 5) : ∃ out out₁ out₂, VbapOutcome Oct.faces invs 2 (a ++ b) 4 out ∧
    VbapOutcome Oct.faces invs 2 a 1 out₁ ∧ VbapOutcome Oct.faces invs 2 b 1 out₂ :=
  ⟨_, _, _, (C31_schedule_independent _ _ _ _ 4 (by norm_num) _).2 rfl, .serial (Or.inl rfl), .serial (Or.inl rfl)⟩

/-- `C148_nearest`: two and two directions. -/
example : ∃ i i', twoHrirs.nearestIdx ⟨[2], [0, 1]⟩ ⟨[2], [1, 1]⟩ = .ok i ∧ twoHrirs.nearestIdx ⟨[2], [2, 3]⟩ ⟨[2], [1, 2]⟩ = .ok i' := by
  obtain ⟨i, h, -⟩ := C51_array twoHrirs twoHrirs_grid [0, 1] [1, 1] rfl le_rfl
  obtain ⟨i', h', -⟩ := C51_array twoHrirs twoHrirs_grid [2, 3] [1, 2] rfl le_rfl
  exact ⟨_, _, h, h'⟩

/-- `C148_harmonics`, `C148_analysis`: exchanging two directions, as a map of indices. -/
example : ((shMat 1 ![0, 1] ![1, 2]).submatrix ![1, 0] id) = shMat 1 (![0, 1] ∘ ![1, 0]) (![1, 2] ∘ ![1, 0]) :=
  ((C148_harmonics (K := 0) (S := 0) 1 ![0, 1] ![1, 2] ![1, 0] 0 none (.weights [])).1).symm

end Verif.Props
