import Verif.Props.Pipeline
import Verif.Props.Refining
import Verif.Props.Arriving

/-! Histories of calls on one setup: panning, refining, Ambisonic rendering and setting up in any order: C168. -/

namespace Verif.Props
open Decoder Utils Matrix Real

/-- A call on a `LoudspeakerSetup`, with all its arguments. -/
inductive SetupCall
  | pop (normal aperture opening : Option ℝ) (blacklist : Option (List ℕ))
  | setup (updateHull : Bool) (imaginary : Option (List Vec3)) (order : Option ℕ) (nKernel : Option ℤ)
  | vbap (p : ℝ) (src : List Vec3) (retain : Bool)
  | vbip (p : ℝ) (src : List Vec3) (retain : Bool)
  | allrap {n : ℕ} (src : Fin n → Vec3) (N : Option ℕ)
  | allrap2 {n : ℕ} (src : Fin n → Vec3) (N : Option ℕ)
  | allrad {K S : ℕ} (F : Matrix (Fin K) (Fin S) ℝ) (N : Option ℕ)
  | allrad2 {K S : ℕ} (F : Matrix (Fin K) (Fin S) ℝ) (N : Option ℕ)

/-- The setup after the call, whether it returns or raises. -/
noncomputable def SetupCall.after (qhull : (L : ℕ) → (Fin L → Vec3) → Py (List (Face L))) (lstsq : Mat3 → Mat3) (ndesign : ℤ → Option (List Vec3)) {L : ℕ} (s : Setup L) : SetupCall → Setup L
  | .pop n a o b => { s with toHull := popTriangles s.toHull n a o b }
  | .setup u im c nk => (ambisonicsSetup qhull lstsq ndesign s u im c nk).2
  | .vbap p src r => (Decoder.vbap lstsq p src none r s).2
  | .vbip p src r => (Decoder.vbip lstsq p src none r s).2
  | .allrap src N => (Decoder.allrap lstsq src N s).2
  | .allrap2 src N => (Decoder.allrap2 lstsq src N s).2
  | .allrad F N => (Decoder.allrad lstsq F N s).2
  | .allrad2 F N => (Decoder.allrad2 lstsq F N s).2

/-- What the call returns or raises: rows of gains, or loudspeaker signals; nothing for `pop_triangles` and `ambisonics_setup`. -/
noncomputable def SetupCall.result (qhull : (L : ℕ) → (Fin L → Vec3) → Py (List (Face L))) (lstsq : Mat3 → Mat3) (ndesign : ℤ → Option (List Vec3)) {L : ℕ} (s : Setup L) : SetupCall → Py (List (List ℝ))
  | .pop .. => .ok []
  | .setup u im c nk => (ambisonicsSetup qhull lstsq ndesign s u im c nk).1.map fun _ => []
  | .vbap p src r => (Decoder.vbap lstsq p src none r s).1
  | .vbip p src r => (Decoder.vbip lstsq p src none r s).1
  | .allrap src N => (Decoder.allrap lstsq src N s).1.map List.ofFn
  | .allrap2 src N => (Decoder.allrap2 lstsq src N s).1.map List.ofFn
  | .allrad F N => (Decoder.allrad lstsq F N s).1.map fun sig => sig.map List.ofFn
  | .allrad2 F N => (Decoder.allrad2 lstsq F N s).1.map fun sig => sig.map List.ofFn

/-- The call is not `ambisonics_setup`. -/
def SetupCall.NoSetup : SetupCall → Prop
  | .setup .. => False
  | _ => True

/-- The calls that use the Ambisonic hull. -/
def SetupCall.Ambisonic : SetupCall → Prop
  | .pop .. => False
  | .setup .. => False
  | .vbap _ _ r => r = true
  | .vbip _ _ r => r = true
  | _ => True

/-- The order is given with the call, if it takes one. -/
def SetupCall.Explicit : SetupCall → Prop
  | .allrap _ N => N ≠ none
  | .allrap2 _ N => N ≠ none
  | .allrad _ N => N ≠ none
  | .allrad2 _ N => N ≠ none
  | _ => True

/-- The setup after a sequence of calls. -/
noncomputable def afterAll (qhull : (L : ℕ) → (Fin L → Vec3) → Py (List (Face L))) (lstsq : Mat3 → Mat3) (ndesign : ℤ → Option (List Vec3)) {L : ℕ} (calls : List SetupCall) (s : Setup L) : Setup L :=
  calls.foldl (SetupCall.after qhull lstsq ndesign) s

/-- The Ambisonic hull up to stored inverses, which are right. -/
def SameAmbi {L : ℕ} (lstsq : Mat3 → Mat3) (am : Ambi L) (s : Setup L) : Prop :=
  ∃ b, s.ambi = some ⟨am.M, { am.hull with invBase := b }, am.imaginary⟩ ∧ CacheOk lstsq { am.hull with invBase := b }

/-- What a call on the Ambisonic hull does to the setup. -/
def AmbiStep {L : ℕ} (lstsq : Mat3 → Mat3) (s t : Setup L) : Prop :=
  t = s ∨ ∃ (am : Ambi L) (p : ℝ) (src : List Vec3), s.ambi = some am ∧ t = { s with ambi := some { am with hull := (vbapHull lstsq p src none am.hull).2 } }

theorem prologue_ambi {L : ℕ} {s : Setup L} {N : Option ℕ} {am : Ambi L} {k : Kernel} {n : ℕ} (h : ambiPrologue s N = .ok (am, k, n)) : s.ambi = some am := by
  unfold ambiPrologue at h
  cases ha : s.ambi with
  | none => rw [ha] at h; cases h
  | some am' =>
    cases hk : s.kernel with
    | none => rw [ha, hk] at h; cases h
    | some k' =>
      rw [ha, hk] at h
      cases N with
      | some n' => cases h; rfl
      | none =>
        cases hc : s.charOrder with
        | none => rw [hc] at h; cases h
        | some n' => rw [hc] at h; cases h; rfl

theorem allrap2_step {L n : ℕ} (lstsq : Mat3 → Mat3) (src : Fin n → Vec3) (N : Option ℕ) (s : Setup L) : AmbiStep lstsq s (Decoder.allrap2 lstsq src N s).2 := by
  unfold Decoder.allrap2
  cases hp : ambiPrologue s N with
  | error e => exact .inl rfl
  | ok x => obtain ⟨am, k, n'⟩ := x; exact .inr ⟨am, 2, List.ofFn k.points, prologue_ambi hp, rfl⟩

theorem vbap_step {L : ℕ} (lstsq : Mat3 → Mat3) (p : ℝ) (src : List Vec3) (s : Setup L) : AmbiStep lstsq s (Decoder.vbap lstsq p src none true s).2 := by
  unfold Decoder.vbap
  simp only [if_true, Option.isSome_none, Bool.false_eq_true, if_false]
  cases ha : s.ambi with
  | none => exact .inl rfl
  | some am =>
    cases hi : am.imaginary with
    | none => simp only [hi]; exact .inl rfl
    | some idx => simp only [hi]; exact .inr ⟨am, p, src, ha, by rw [← hi]⟩

theorem ambi_step (qhull : (L : ℕ) → (Fin L → Vec3) → Py (List (Face L))) (lstsq : Mat3 → Mat3) (ndesign : ℤ → Option (List Vec3)) {L : ℕ} (s : Setup L) (c : SetupCall) (hc : c.Ambisonic) :
    AmbiStep lstsq s (c.after qhull lstsq ndesign s) := by
  cases c with
  | pop => exact hc.elim
  | setup => exact hc.elim
  | vbap p src r => obtain rfl : r = true := hc; exact vbap_step lstsq p src s
  | vbip p src r => obtain rfl : r = true := hc; exact vbap_step lstsq 2 src s
  | allrap src N =>
    simp only [SetupCall.after]
    unfold Decoder.allrap
    cases hp : ambiPrologue s N with
    | error e => exact .inl rfl
    | ok x => obtain ⟨am, k, n'⟩ := x; exact .inr ⟨am, 2, List.ofFn k.points, prologue_ambi hp, rfl⟩
  | allrap2 src N => exact allrap2_step lstsq src N s
  | allrad F N =>
    simp only [SetupCall.after]
    unfold Decoder.allrad
    cases hp : ambiPrologue s N with
    | error e => exact .inl rfl
    | ok x =>
      obtain ⟨am, k, n'⟩ := x
      simp only
      split_ifs
      · exact .inl rfl
      · exact .inr ⟨am, 2, List.ofFn k.points, prologue_ambi hp, rfl⟩
  | allrad2 F N =>
    simp only [SetupCall.after]
    unfold Decoder.allrad2
    cases hp : ambiPrologue s N with
    | error e => exact .inl rfl
    | ok x =>
      obtain ⟨am, k, n'⟩ := x
      simp only
      split_ifs
      · exact .inl rfl
      · exact allrap2_step lstsq k.points (some n') s

theorem AmbiStep.same {L : ℕ} {lstsq : Mat3 → Mat3} {s t : Setup L} (h : AmbiStep lstsq s t) {am : Ambi L} (ha : SameAmbi lstsq am s) :
    SameAmbi lstsq am t ∧ t.kernel = s.kernel ∧ t.toHull = s.toHull := by
  rcases h with rfl | ⟨am', p, src, e, rfl⟩
  · exact ⟨ha, rfl, rfl⟩
  · obtain ⟨b, e', hb⟩ := ha
    rw [e] at e'
    obtain rfl := Option.some.inj e'
    refine ⟨⟨some (invertTriplets lstsq am.hull.valid am.hull.points), ?_, fun b hb => by cases hb; rfl⟩, rfl, rfl⟩
    simp only
    rw [vbapHull_cache lstsq p src hb]

theorem AmbiStep.frame {L : ℕ} {lstsq : Mat3 → Mat3} {s t : Setup L} (h : AmbiStep lstsq s t) : t.kernel = s.kernel ∧ t.toHull = s.toHull := by
  rcases h with rfl | ⟨am', p, src, e, rfl⟩ <;> exact ⟨rfl, rfl⟩

theorem kernelGains_same {L : ℕ} (lstsq : Mat3 → Mat3) (am : Ambi L) (k : Kernel) (b : Option (List Mat3)) (hb : CacheOk lstsq { am.hull with invBase := b }) :
    (kernelGains lstsq ⟨am.M, { am.hull with invBase := b }, am.imaginary⟩ k).1 = (kernelGains lstsq ⟨am.M, { am.hull with invBase := none }, am.imaginary⟩ k).1 := by
  unfold kernelGains
  simp only
  rw [vbapHull_cache lstsq 2 (List.ofFn k.points) hb]

theorem realIdx_same {L M : ℕ} (h h' : Hull (L + M)) (i : Option (List (Fin (L + M)))) : realIdx (⟨M, h', i⟩ : Ambi L) = realIdx (⟨M, h, i⟩ : Ambi L) := by
  cases i <;> rfl

theorem prologue_same {L : ℕ} {s : Setup L} {am : Ambi L} (ha : s.ambi = some am) (N : Option ℕ) :
    ambiPrologue s N = match s.kernel with
      | none => .error .valueError
      | some k => match N with
        | some n => .ok (am, k, n)
        | none => match s.charOrder with
          | some n => .ok (am, k, n)
          | none => .error .typeError := by
  unfold ambiPrologue
  rw [ha]
  rfl

theorem allrap2_same {L n : ℕ} (lstsq : Mat3 → Mat3) (src : Fin n → Vec3) {s t : Setup L} {am : Ambi L} (hs : SameAmbi lstsq am s) (ht : SameAmbi lstsq am t) (hk : t.kernel = s.kernel) (hc : t.charOrder = s.charOrder)
    (N : Option ℕ) : (Decoder.allrap2 lstsq src N t).1 = (Decoder.allrap2 lstsq src N s).1 := by
  obtain ⟨b, e1, hb⟩ := hs
  obtain ⟨b', e2, hb'⟩ := ht
  unfold Decoder.allrap2
  rw [prologue_same e1, prologue_same e2, hk, hc]
  cases s.kernel with
  | none => rfl
  | some k =>
    have h1 := kernelGains_same lstsq am k b hb
    have h2 := kernelGains_same lstsq am k b' hb'
    cases N with
    | some n => show Except.map _ _ = Except.map _ _; rw [h2, h1, realIdx_same { am.hull with invBase := b } { am.hull with invBase := b' } am.imaginary]
    | none =>
      cases s.charOrder with
      | none => rfl
      | some n => show Except.map _ _ = Except.map _ _; rw [h2, h1, realIdx_same { am.hull with invBase := b } { am.hull with invBase := b' } am.imaginary]

theorem vbap_same {L : ℕ} (lstsq : Mat3 → Mat3) (p : ℝ) (src : List Vec3) {s t : Setup L} {am : Ambi L} (hs : SameAmbi lstsq am s) (ht : SameAmbi lstsq am t) :
    (Decoder.vbap lstsq p src none true t).1 = (Decoder.vbap lstsq p src none true s).1 := by
  obtain ⟨b, e1, hb⟩ := hs
  obtain ⟨b', e2, hb'⟩ := ht
  unfold Decoder.vbap
  rw [e1, e2]
  simp only [if_true, Option.isSome_none, Bool.false_eq_true, if_false]
  cases am.imaginary with
  | none => rfl
  | some idx =>
    simp only
    rw [vbapHull_cache lstsq p src hb, vbapHull_cache lstsq p src hb']

theorem result_same (qhull : (L : ℕ) → (Fin L → Vec3) → Py (List (Face L))) (lstsq : Mat3 → Mat3) (ndesign : ℤ → Option (List Vec3)) {L : ℕ} {s t : Setup L} {am : Ambi L} (hs : SameAmbi lstsq am s) (ht : SameAmbi lstsq am t)
    (hk : t.kernel = s.kernel) (hc : t.charOrder = s.charOrder) (c : SetupCall) (ha : c.Ambisonic) : c.result qhull lstsq ndesign t = c.result qhull lstsq ndesign s := by
  cases c with
  | pop => exact ha.elim
  | setup => exact ha.elim
  | vbap p src r => obtain rfl : r = true := ha; exact vbap_same lstsq p src hs ht
  | vbip p src r =>
    obtain rfl : r = true := ha
    simp only [SetupCall.result, Decoder.vbip]
    rw [vbap_same lstsq 2 src hs ht]
  | allrap src N =>
    simp only [SetupCall.result]
    congr 1
    obtain ⟨b, e1, hb⟩ := hs
    obtain ⟨b', e2, hb'⟩ := ht
    unfold Decoder.allrap
    rw [prologue_same e1, prologue_same e2, hk, hc]
    cases s.kernel with
    | none => rfl
    | some k =>
      have h1 := kernelGains_same lstsq am k b hb
      have h2 := kernelGains_same lstsq am k b' hb'
      cases N with
      | some n => show Except.map _ _ = Except.map _ _; rw [h2, h1, realIdx_same { am.hull with invBase := b } { am.hull with invBase := b' } am.imaginary]
      | none =>
        cases s.charOrder with
        | none => rfl
        | some n => show Except.map _ _ = Except.map _ _; rw [h2, h1, realIdx_same { am.hull with invBase := b } { am.hull with invBase := b' } am.imaginary]
  | allrap2 src N =>
    simp only [SetupCall.result]
    rw [allrap2_same lstsq src hs ht hk hc N]
  | allrad F N =>
    simp only [SetupCall.result]
    congr 1
    obtain ⟨b, e1, hb⟩ := hs
    obtain ⟨b', e2, hb'⟩ := ht
    unfold Decoder.allrad
    rw [prologue_same e1, prologue_same e2, hk, hc]
    cases s.kernel with
    | none => rfl
    | some k =>
      have h1 := kernelGains_same lstsq am k b hb
      have h2 := kernelGains_same lstsq am k b' hb'
      cases N with
      | some n =>
        simp only
        split_ifs
        · rfl
        · show Except.bind _ _ = Except.bind _ _; rw [h2, h1, realIdx_same { am.hull with invBase := b } { am.hull with invBase := b' } am.imaginary]
      | none =>
        cases s.charOrder with
        | none => rfl
        | some n =>
          simp only
          split_ifs
          · rfl
          · show Except.bind _ _ = Except.bind _ _; rw [h2, h1, realIdx_same { am.hull with invBase := b } { am.hull with invBase := b' } am.imaginary]
  | allrad2 F N =>
    simp only [SetupCall.result]
    congr 1
    have hr := fun n (k : Kernel) => allrap2_same lstsq k.points hs ht hk hc (some n)
    obtain ⟨b, e1, hb⟩ := hs
    obtain ⟨b', e2, hb'⟩ := ht
    unfold Decoder.allrad2
    rw [prologue_same e1, prologue_same e2, hk, hc]
    cases s.kernel with
    | none => rfl
    | some k =>
      cases N with
      | some n =>
        simp only
        split_ifs
        · rfl
        · show Except.bind _ _ = Except.bind _ _; rw [hr n k, realIdx_same { am.hull with invBase := b } { am.hull with invBase := b' } am.imaginary]
      | none =>
        cases s.charOrder with
        | none => rfl
        | some n =>
          simp only
          split_ifs
          · rfl
          · show Except.bind _ _ = Except.bind _ _; rw [hr n k, realIdx_same { am.hull with invBase := b } { am.hull with invBase := b' } am.imaginary]

theorem pop_frame {L : ℕ} (h : Hull L) (n a o : Option ℝ) (b : Option (List ℕ)) : ∃ v, popTriangles h n a o b = { h with valid := v } := by
  unfold popTriangles popBlacklist popOpening popAperture popNormal applyBlacklist
  cases n <;> cases a <;> cases o <;> cases b <;> exact ⟨_, rfl⟩

theorem setup_frame (qhull : (L : ℕ) → (Fin L → Vec3) → Py (List (Face L))) (lstsq : Mat3 → Mat3) (ndesign : ℤ → Option (List Vec3)) {L : ℕ} (s : Setup L) (u : Bool) (im : Option (List Vec3)) (c : Option ℕ) (nk : Option ℤ) :
    ∃ o, (ambisonicsSetup qhull lstsq ndesign s u im c nk).2.toHull = { s.toHull with charOrder := o } := by
  unfold ambisonicsSetup
  cases setupOrder lstsq s.toHull c with
  | error e => exact ⟨s.charOrder, rfl⟩
  | ok n =>
    cases nk with
    | none => exact ⟨some n, rfl⟩
    | some k =>
      simp only
      cases setupHulls qhull ndesign { s.toHull with charOrder := some n } u im k with
      | error e => exact ⟨some n, rfl⟩
      | ok x => exact ⟨some n, rfl⟩

theorem wf_change {L : ℕ} {h : Hull L} (hw : WellFormed h) (v : List (Face L)) (hv : v.Sublist h.valid) (b : Option (List Mat3)) (o : Option ℕ) : WellFormed { h with valid := v, invBase := b, charOrder := o } :=
  ⟨hw.inj, hw.distinct, hw.centroids, hw.normals, hv.trans hw.valid, hw.listener⟩

theorem call_frame (qhull : (L : ℕ) → (Fin L → Vec3) → Py (List (Face L))) (lstsq : Mat3 → Mat3) (ndesign : ℤ → Option (List Vec3)) {L : ℕ} (s : Setup L) (hw : WellFormed s.toHull) (c : SetupCall) :
    ∃ v b o, (c.after qhull lstsq ndesign s).toHull = { s.toHull with valid := v, invBase := b, charOrder := o } ∧ v.Sublist s.valid ∧ (c.NoSetup → o = s.charOrder) := by
  by_cases ha : c.Ambisonic
  · exact ⟨s.valid, s.invBase, s.charOrder, (ambi_step qhull lstsq ndesign s c ha).frame.2, List.Sublist.refl _, fun _ => rfl⟩
  cases c with
  | pop n a o b =>
    obtain ⟨v, hv⟩ := pop_frame s.toHull n a o b
    have h1 := (C35_sublist hw n a o b).1
    rw [hv] at h1
    exact ⟨v, s.invBase, s.charOrder, hv, h1, fun _ => rfl⟩
  | setup u im c nk =>
    obtain ⟨o, ho⟩ := setup_frame qhull lstsq ndesign s u im c nk
    exact ⟨s.valid, s.invBase, o, ho, List.Sublist.refl _, fun h => h.elim⟩
  | vbap p src r =>
    obtain rfl : r = false := by simpa [SetupCall.Ambisonic] using ha
    exact ⟨s.valid, _, s.charOrder, rfl, List.Sublist.refl _, fun _ => rfl⟩
  | vbip p src r =>
    obtain rfl : r = false := by simpa [SetupCall.Ambisonic] using ha
    exact ⟨s.valid, _, s.charOrder, rfl, List.Sublist.refl _, fun _ => rfl⟩
  | allrap => exact absurd trivial ha
  | allrap2 => exact absurd trivial ha
  | allrad => exact absurd trivial ha
  | allrad2 => exact absurd trivial ha

/-- **C168**: no call changes the geometry. After any calls, in any order and whether they return or raise, positions, listener, distances, faces and everything computed from them are what they were; valid faces are only ever removed; and only `ambisonics_setup` changes the characteristic order. -/
theorem C168_frame (qhull : (L : ℕ) → (Fin L → Vec3) → Py (List (Face L))) (lstsq : Mat3 → Mat3) (ndesign : ℤ → Option (List Vec3)) {L : ℕ} :
    ∀ (calls : List SetupCall) (s : Setup L), WellFormed s.toHull →
      ∃ v b o, (afterAll qhull lstsq ndesign calls s).toHull = { s.toHull with valid := v, invBase := b, charOrder := o } ∧ v.Sublist s.valid ∧ ((∀ c ∈ calls, c.NoSetup) → o = s.charOrder)
  | [], s, _ => ⟨s.valid, s.invBase, s.charOrder, rfl, List.Sublist.refl _, fun _ => rfl⟩
  | c :: cs, s, hw => by
    obtain ⟨v, b, o, h1, h2, h3⟩ := call_frame qhull lstsq ndesign s hw c
    obtain ⟨v', b', o', h4, h5, h6⟩ := C168_frame qhull lstsq ndesign cs (c.after qhull lstsq ndesign s) (by rw [h1]; exact wf_change hw v h2 b o)
    refine ⟨v', b', o', h4.trans (by rw [h1]), ?_, fun h => ?_⟩
    · rw [h1] at h5; exact h5.trans h2
    · rw [h6 fun c' hc' => h c' (List.mem_cons_of_mem _ hc'), h1]; exact h3 (h c (List.mem_cons_self ..))

theorem step_same (qhull : (L : ℕ) → (Fin L → Vec3) → Py (List (Face L))) (lstsq : Mat3 → Mat3) (ndesign : ℤ → Option (List Vec3)) {L : ℕ} {s : Setup L} {am : Ambi L} (hs : SameAmbi lstsq am s) (c : SetupCall) (hc : c.NoSetup) :
    SameAmbi lstsq am (c.after qhull lstsq ndesign s) ∧ (c.after qhull lstsq ndesign s).kernel = s.kernel ∧ (c.after qhull lstsq ndesign s).charOrder = s.charOrder := by
  by_cases ha : c.Ambisonic
  · obtain ⟨h1, h2, h3⟩ := (ambi_step qhull lstsq ndesign s c ha).same hs
    exact ⟨h1, h2, by rw [h3]⟩
  cases c with
  | pop n a o b =>
    obtain ⟨v, hv⟩ := pop_frame s.toHull n a o b
    refine ⟨hs, rfl, ?_⟩
    show (popTriangles s.toHull n a o b).charOrder = _
    rw [hv]
  | setup => exact hc.elim
  | vbap p src r =>
    obtain rfl : r = false := by simpa [SetupCall.Ambisonic] using ha
    exact ⟨hs, rfl, rfl⟩
  | vbip p src r =>
    obtain rfl : r = false := by simpa [SetupCall.Ambisonic] using ha
    exact ⟨hs, rfl, rfl⟩
  | allrap => exact absurd trivial ha
  | allrap2 => exact absurd trivial ha
  | allrad => exact absurd trivial ha
  | allrad2 => exact absurd trivial ha

theorem steps_same (qhull : (L : ℕ) → (Fin L → Vec3) → Py (List (Face L))) (lstsq : Mat3 → Mat3) (ndesign : ℤ → Option (List Vec3)) {L : ℕ} {am : Ambi L} : ∀ (calls : List SetupCall) {s : Setup L}, SameAmbi lstsq am s → (∀ c ∈ calls, c.NoSetup) →
    SameAmbi lstsq am (afterAll qhull lstsq ndesign calls s) ∧ (afterAll qhull lstsq ndesign calls s).kernel = s.kernel ∧ (afterAll qhull lstsq ndesign calls s).charOrder = s.charOrder
  | [], s, hs, _ => ⟨hs, rfl, rfl⟩
  | c :: cs, s, hs, hc => by
    obtain ⟨h1, h2, h3⟩ := step_same qhull lstsq ndesign hs c (hc c (List.mem_cons_self ..))
    obtain ⟨h4, h5, h6⟩ := steps_same qhull lstsq ndesign cs h1 fun c' hc' => hc c' (List.mem_cons_of_mem _ hc')
    exact ⟨h4, h5.trans h2, h6.trans h3⟩

theorem same_self {L : ℕ} {lstsq : Mat3 → Mat3} {s : Setup L} {am : Ambi L} (ha : s.ambi = some am) (hc : CacheOk lstsq am.hull) : SameAmbi lstsq am s := ⟨am.hull.invBase, ha, hc⟩

/-- **C168**: rendering with the Ambisonic hull and panning on the loudspeakers do not disturb each other. On a prepared setup, `allrap`, `allrap2`, `allrad`, `allrad2` and `vbap`, `vbip` with `retain_outside` return, after any calls but `ambisonics_setup` (so also after
`pop_triangles`), what they returned before; and after any of these calls `vbap` and `vbip` without `retain_outside`, `pop_triangles` and `ambisonics_setup` do what they did before. -/
theorem C168_isolated (qhull : (L : ℕ) → (Fin L → Vec3) → Py (List (Face L))) (lstsq : Mat3 → Mat3) (ndesign : ℤ → Option (List Vec3)) {L : ℕ} (s : Setup L) (am : Ambi L) (ha : s.ambi = some am) (hcache : CacheOk lstsq am.hull)
    (calls : List SetupCall) :
    ((∀ c ∈ calls, c.NoSetup) → ∀ c : SetupCall, c.Ambisonic → c.result qhull lstsq ndesign (afterAll qhull lstsq ndesign calls s) = c.result qhull lstsq ndesign s) ∧
    ((∀ c ∈ calls, c.Ambisonic) → ∀ c : SetupCall, ¬ c.Ambisonic → c.result qhull lstsq ndesign (afterAll qhull lstsq ndesign calls s) = c.result qhull lstsq ndesign s ∧
      (c.after qhull lstsq ndesign (afterAll qhull lstsq ndesign calls s)).toHull = (c.after qhull lstsq ndesign s).toHull) := by
  refine ⟨fun hc c hcA => ?_, fun hc c hcA => ?_⟩
  · obtain ⟨h1, h2, h3⟩ := steps_same qhull lstsq ndesign calls (same_self ha hcache) hc
    exact result_same qhull lstsq ndesign (same_self ha hcache) h1 h2 h3 c hcA
  · have hh : ∀ (calls : List SetupCall) (s : Setup L), (∀ c ∈ calls, c.Ambisonic) → (afterAll qhull lstsq ndesign calls s).toHull = s.toHull := by
      intro calls
      induction calls with
      | nil => intro s _; rfl
      | cons c cs ih => intro s h; exact (ih _ fun c' hc' => h c' (List.mem_cons_of_mem _ hc')).trans (ambi_step qhull lstsq ndesign s c (h c (List.mem_cons_self ..))).frame.2
    have h1 := hh calls s hc
    obtain ⟨t, ht⟩ : ∃ t, t = afterAll qhull lstsq ndesign calls s := ⟨_, rfl⟩
    rw [← ht] at h1 ⊢
    cases c with
    | pop n a o b => exact ⟨rfl, by show popTriangles _ _ _ _ _ = popTriangles _ _ _ _ _; rw [h1]⟩
    | setup u im c nk =>
      simp only [SetupCall.result, SetupCall.after]
      unfold ambisonicsSetup
      rw [h1]
      cases setupOrder lstsq s.toHull c with
      | error e => exact ⟨rfl, h1⟩
      | ok n =>
        cases nk with
        | none => exact ⟨rfl, rfl⟩
        | some k =>
          simp only
          cases setupHulls qhull ndesign { s.toHull with charOrder := some n } u im k with
          | error e => exact ⟨rfl, rfl⟩
          | ok x => exact ⟨rfl, rfl⟩
    | vbap p src r =>
      obtain rfl : r = false := by simpa [SetupCall.Ambisonic] using hcA
      simp only [SetupCall.result, SetupCall.after, Decoder.vbap, Bool.false_eq_true, if_false, h1, and_self]
    | vbip p src r =>
      obtain rfl : r = false := by simpa [SetupCall.Ambisonic] using hcA
      simp only [SetupCall.result, SetupCall.after, Decoder.vbip, Decoder.vbap, Bool.false_eq_true, if_false, h1, and_self]
    | allrap => exact absurd trivial hcA
    | allrap2 => exact absurd trivial hcA
    | allrad => exact absurd trivial hcA
    | allrad2 => exact absurd trivial hcA

theorem setup_ok {qhull : (L : ℕ) → (Fin L → Vec3) → Py (List (Face L))} {lstsq : Mat3 → Mat3} {ndesign : ℤ → Option (List Vec3)} {L : ℕ} {s : Setup L} {u : Bool} {im : Option (List Vec3)} {c : Option ℕ} {nk : Option ℤ}
    (h : (ambisonicsSetup qhull lstsq ndesign s u im c nk).1 = .ok ()) :
    ∃ n k am kern, nk = some k ∧ setupOrder lstsq s.toHull c = .ok n ∧ setupHulls qhull ndesign { s.toHull with charOrder := some n } u im k = .ok (am, kern) ∧
      (ambisonicsSetup qhull lstsq ndesign s u im c nk).2 = ⟨{ s.toHull with charOrder := some n }, some am, some kern⟩ := by
  unfold ambisonicsSetup at h ⊢
  cases ho : setupOrder lstsq s.toHull c with
  | error e => rw [ho] at h; cases h
  | ok n =>
    rw [ho] at h
    cases nk with
    | none => cases h
    | some k =>
      simp only at h ⊢
      cases hs : setupHulls qhull ndesign { s.toHull with charOrder := some n } u im k with
      | error e => rw [hs] at h; cases h
      | ok x => obtain ⟨am, kern⟩ := x; exact ⟨n, k, am, kern, rfl, rfl, hs, rfl⟩

theorem hulls_points (qhull : (L : ℕ) → (Fin L → Vec3) → Py (List (Face L))) (ndesign : ℤ → Option (List Vec3)) {L : ℕ} {h h' : Hull L} (hp : h'.points = h.points) (u : Bool) (im : Option (List Vec3)) (hu : u = true → im ≠ none) (k : ℤ) :
    setupHulls qhull ndesign h' u im k = setupHulls qhull ndesign h u im k := by
  unfold setupHulls mkAmbi
  rw [hp]
  congr 1
  unfold imaginaryPoints
  cases u with
  | false => rfl
  | true =>
    cases im with
    | none => exact absurd rfl (hu rfl)
    | some v => rfl

theorem hulls_cache {qhull : (L : ℕ) → (Fin L → Vec3) → Py (List (Face L))} {ndesign : ℤ → Option (List Vec3)} {L : ℕ} {h : Hull L} {u : Bool} {im : Option (List Vec3)} {k : ℤ} {am : Ambi L} {kern : Kernel}
    (hs : setupHulls qhull ndesign h u im k = .ok (am, kern)) (lstsq : Mat3 → Mat3) : CacheOk lstsq am.hull := by
  unfold setupHulls at hs
  change (imaginaryPoints h u im).bind _ = _ at hs
  cases hi : imaginaryPoints h u im with
  | error e => rw [hi] at hs; cases hs
  | ok imag =>
    rw [hi] at hs
    change (mkAmbi qhull h imag).bind _ = _ at hs
    cases ha : mkAmbi qhull h imag with
    | error e => rw [ha] at hs; cases hs
    | ok am' =>
      rw [ha] at hs
      change (Grids.loadNDesign ndesign (2 * k)).bind _ = _ at hs
      cases hl : Grids.loadNDesign ndesign (2 * k) with
      | error e => rw [hl] at hs; cases hs
      | ok x =>
        rw [hl] at hs
        change (qhull x.1.length fun i => x.1[i]).bind _ = _ at hs
        cases hq : qhull x.1.length (fun i => x.1[i]) with
        | error e => rw [hq] at hs; cases hs
        | ok f =>
          rw [hq] at hs
          have := Except.ok.inj hs
          obtain rfl : am' = am := congrArg Prod.fst this
          unfold mkAmbi at ha
          change (mkHull qhull (Fin.append h.points fun i : Fin (imag.getD []).length => (imag.getD [])[i]) 0).bind _ = _ at ha
          cases hm : mkHull qhull (Fin.append h.points fun i : Fin (imag.getD []).length => (imag.getD [])[i]) 0 with
          | error e => rw [hm] at ha; cases ha
          | ok hull =>
            rw [hm] at ha
            have h2 := Except.ok.inj ha
            rw [← h2]
            intro b hb
            rw [(made_fields hm).2.2.2.1] at hb
            cases hb

theorem explicit_result (qhull : (L : ℕ) → (Fin L → Vec3) → Py (List (Face L))) (lstsq : Mat3 → Mat3) (ndesign : ℤ → Option (List Vec3)) {L : ℕ} (s : Setup L) (o : Option ℕ) (c : SetupCall) (hc : c.Explicit) (ha : c.Ambisonic) :
    c.result qhull lstsq ndesign { s with charOrder := o } = c.result qhull lstsq ndesign s := by
  have hp : ∀ n, ambiPrologue { s with charOrder := o } (some n) = ambiPrologue s (some n) := fun n => rfl
  have hv : ∀ p src, (Decoder.vbap lstsq p src none true { s with charOrder := o }).1 = (Decoder.vbap lstsq p src none true s).1 := by
    intro p src
    unfold Decoder.vbap
    simp only [if_true, Option.isSome_none, Bool.false_eq_true, if_false]
    cases s.ambi with
    | none => rfl
    | some am =>
      simp only
      cases hi : am.imaginary <;> simp only [hi]
  cases c with
  | pop => exact ha.elim
  | setup => exact ha.elim
  | vbap p src r => obtain rfl : r = true := ha; exact hv p src
  | vbip p src r =>
    obtain rfl : r = true := ha
    simp only [SetupCall.result, Decoder.vbip]
    rw [hv 2 src]
  | allrap src N =>
    obtain ⟨n, rfl⟩ := Option.ne_none_iff_exists'.1 hc
    simp only [SetupCall.result, Decoder.allrap, hp]
    cases ambiPrologue s (some n) <;> rfl
  | allrap2 src N =>
    obtain ⟨n, rfl⟩ := Option.ne_none_iff_exists'.1 hc
    simp only [SetupCall.result, Decoder.allrap2, hp]
    cases ambiPrologue s (some n) <;> rfl
  | allrad F N =>
    obtain ⟨n, rfl⟩ := Option.ne_none_iff_exists'.1 hc
    simp only [SetupCall.result, Decoder.allrad, hp]
    cases ambiPrologue s (some n) with
    | error e => rfl
    | ok x => simp only; split_ifs <;> rfl
  | allrad2 F N =>
    obtain ⟨n, rfl⟩ := Option.ne_none_iff_exists'.1 hc
    simp only [SetupCall.result, Decoder.allrad2, hp]
    cases ambiPrologue s (some n) with
    | error e => rfl
    | ok x =>
      simp only
      split_ifs
      · rfl
      · have hr : (Decoder.allrap2 lstsq x.2.1.points (some x.2.2) { s with charOrder := o }).1 = (Decoder.allrap2 lstsq x.2.1.points (some x.2.2) s).1 := by
          simp only [Decoder.allrap2, hp]
          cases ambiPrologue s (some x.2.2) <;> rfl
        rw [hr]

/-- **C168**: what counts for rendering with the Ambisonic hull is the last completed `ambisonics_setup`, not what happened before or after. With `update_hull=False`, or with given imaginary loudspeakers, the results after any history (panning, removed triangles, earlier or failed
`ambisonics_setup` calls), a completed `ambisonics_setup` and any calls but further ones are those of a new setup on which only `ambisonics_setup` was called, if the order is given with one of the two. In particular removed triangles come back. -/
theorem C168_history (qhull : (L : ℕ) → (Fin L → Vec3) → Py (List (Face L))) (lstsq : Mat3 → Mat3) (ndesign : ℤ → Option (List Vec3)) {L : ℕ} (h : Hull L) (hw : WellFormed h)
    (before after : List SetupCall) (hafter : ∀ c ∈ after, c.NoSetup) (u : Bool) (im : Option (List Vec3)) (hu : u = true → im ≠ none) (co co' : Option ℕ) (nk : Option ℤ)
    (h1 : (ambisonicsSetup qhull lstsq ndesign (afterAll qhull lstsq ndesign before ⟨h, none, none⟩) u im co nk).1 = .ok ())
    (h2 : (ambisonicsSetup qhull lstsq ndesign (⟨h, none, none⟩ : Setup L) u im co' nk).1 = .ok ())
    (c : SetupCall) (ha : c.Ambisonic) (hc : c.Explicit ∨ ∃ n, co = some n ∧ co' = some n) :
    c.result qhull lstsq ndesign (afterAll qhull lstsq ndesign after (ambisonicsSetup qhull lstsq ndesign (afterAll qhull lstsq ndesign before ⟨h, none, none⟩) u im co nk).2)
      = c.result qhull lstsq ndesign (ambisonicsSetup qhull lstsq ndesign (⟨h, none, none⟩ : Setup L) u im co' nk).2 := by
  obtain ⟨v, b, o, hf, -, -⟩ := C168_frame qhull lstsq ndesign before (⟨h, none, none⟩ : Setup L) hw
  obtain ⟨n, k, am, kern, e1, e2, e3, e4⟩ := setup_ok h1
  obtain ⟨n', k', am', kern', e1', e2', e3', e4'⟩ := setup_ok h2
  obtain rfl : k' = k := Option.some.inj (e1'.symm.trans e1)
  have hsame : setupHulls qhull ndesign { (afterAll qhull lstsq ndesign before (⟨h, none, none⟩ : Setup L)).toHull with charOrder := some n } u im k' = setupHulls qhull ndesign { h with charOrder := some n' } u im k' :=
    hulls_points qhull ndesign (by rw [hf]) u im hu k'
  rw [e3] at hsame
  have hx := Except.ok.inj (hsame.trans e3')
  obtain rfl : am = am' := congrArg Prod.fst hx
  obtain rfl : kern = kern' := congrArg Prod.snd hx
  have hcache := hulls_cache e3 lstsq
  rw [(C168_isolated qhull lstsq ndesign _ am (by rw [e4]) hcache after).1 hafter c ha, e4, e4']
  have key : c.result qhull lstsq ndesign (⟨{ (afterAll qhull lstsq ndesign before (⟨h, none, none⟩ : Setup L)).toHull with charOrder := some n' }, some am, some kern⟩ : Setup L)
      = c.result qhull lstsq ndesign (⟨{ h with charOrder := some n' }, some am, some kern⟩ : Setup L) :=
    result_same qhull lstsq ndesign (s := ⟨{ h with charOrder := some n' }, some am, some kern⟩)
      (t := ⟨{ (afterAll qhull lstsq ndesign before (⟨h, none, none⟩ : Setup L)).toHull with charOrder := some n' }, some am, some kern⟩) (same_self rfl hcache) (same_self rfl hcache) rfl rfl c ha
  refine Eq.trans ?_ key
  rcases hc with hc | ⟨m, rfl, rfl⟩
  · exact explicit_result qhull lstsq ndesign (⟨{ (afterAll qhull lstsq ndesign before (⟨h, none, none⟩ : Setup L)).toHull with charOrder := some n' }, some am, some kern⟩ : Setup L) (some n) c hc ha
  · obtain rfl : m = n := Except.ok.inj e2
    obtain rfl : m = n' := Except.ok.inj e2'
    rfl

/-- **C168**, the exception: an `ambisonics_setup` that raises (here with `N_kernel=None`) leaves the hulls but not the order, so that sound fields which could be decoded before are now rejected unless the order is given. -/
theorem C168_failed_setup (qhull : (L : ℕ) → (Fin L → Vec3) → Py (List (Face L))) (lstsq : Mat3 → Mat3) (ndesign : ℤ → Option (List Vec3)) {L S : ℕ} (s : Setup L) (am : Ambi L) (k : Kernel) (ha : s.ambi = some am) (hk : s.kernel = some k) (n m : ℕ) (hn : s.charOrder = some n) (hm : m ≠ n)
    (F : Matrix (Fin ((n + 1) ^ 2)) (Fin S) ℝ) (u : Bool) (im : Option (List Vec3)) :
    (ambisonicsSetup qhull lstsq ndesign s u im (some m) none).1 = .error .typeError ∧
    (Decoder.allrad lstsq F none (ambisonicsSetup qhull lstsq ndesign s u im (some m) none).2).1 = .error .assertionError ∧
    (Decoder.allrad lstsq F (some n) (ambisonicsSetup qhull lstsq ndesign s u im (some m) none).2).1 = (Decoder.allrad lstsq F none s).1 := by
  refine ⟨rfl, ?_, ?_⟩
  · show (Decoder.allrad lstsq F none { s with charOrder := some m }).1 = _
    unfold Decoder.allrad
    rw [prologue_same (s := { s with charOrder := some m }) ha]
    simp only [hk]
    rw [if_pos]
    rw [Verif.Sph.C11_order_square]
    exact_mod_cast hm
  · show (Decoder.allrad lstsq F (some n) { s with charOrder := some m }).1 = _
    unfold Decoder.allrad
    rw [prologue_same (s := { s with charOrder := some m }) ha, prologue_same ha]
    simp only [hk, hn]
    split_ifs <;> rfl

/-- The octahedron can be set up for decoding whatever was called before. -/
theorem oct_resetup (lstsq : Mat3 → Mat3) (s : Setup 6) : (ambisonicsSetup Oct.qhull lstsq (fun _ => some (List.ofFn Oct.pts)) s false none (some 1) (some 1)).1 = .ok () := by
  rw [C129_completes]
  have h1 : ∃ f, Oct.qhull (6 + ([] : List Vec3).length) (Fin.append s.points fun i => ([] : List Vec3)[i]) = .ok f := ⟨_, dif_pos rfl⟩
  have h2 : ∃ f, Oct.qhull (List.ofFn Oct.pts).length (fun i => (List.ofFn Oct.pts)[i]) = .ok f := ⟨_, dif_pos (by simp)⟩
  obtain ⟨f2, h2⟩ := h2
  refine ⟨by simp, ⟨[], by simp, by simp, by simp, h1⟩, ⟨1, List.ofFn Oct.pts, [], f2, rfl, ?_, h2⟩⟩
  unfold Grids.loadNDesign Grids.loadNext
  simp

/-- A source is panned, the triangle that plays it removed, another kernel order tried without success; the sound field is decoded as on a new setup. -/
example (lstsq : Mat3 → Mat3) (F : Matrix (Fin ((1 + 1) ^ 2)) (Fin 5) ℝ) :
    (SetupCall.allrad F none).result Oct.qhull lstsq (fun _ => some (List.ofFn Oct.pts)) (afterAll Oct.qhull lstsq (fun _ => some (List.ofFn Oct.pts)) [.vbap 2 [![1, 2, 3]] false, .pop (some 90) none none none, .allrap2 ![![0, 0, 1]] (some 3)]
        (ambisonicsSetup Oct.qhull lstsq (fun _ => some (List.ofFn Oct.pts)) (afterAll Oct.qhull lstsq (fun _ => some (List.ofFn Oct.pts)) [.vbap 2 [![1, 1, 1]] false, .pop none none none (some [0, 2, 4]), .setup false none (some 4) none] ⟨Oct.hull, none, none⟩) false none (some 1) (some 1)).2)
      = (SetupCall.allrad F none).result Oct.qhull lstsq (fun _ => some (List.ofFn Oct.pts)) (ambisonicsSetup Oct.qhull lstsq (fun _ => some (List.ofFn Oct.pts)) (⟨Oct.hull, none, none⟩ : Setup 6) false none (some 1) (some 1)).2 :=
  C168_history Oct.qhull lstsq _ Oct.hull oct_wf _ _ (by simp [SetupCall.NoSetup]) false none (by simp) (some 1) (some 1) (some 1) (oct_resetup lstsq _) (oct_resetup lstsq _) _ trivial (.inr ⟨1, rfl, rfl⟩)

/-- A prepared setup, as the other theorems ask for. -/
example (lstsq : Mat3 → Mat3) : ∃ (s : Setup 6) (am : Ambi 6) (k : Kernel), WellFormed s.toHull ∧ s.ambi = some am ∧ CacheOk lstsq am.hull ∧ s.kernel = some k ∧ s.charOrder = some 1 := by
  obtain ⟨n, k, am, kern, -, h2, h3, h4⟩ := setup_ok (oct_resetup lstsq ⟨Oct.hull, none, none⟩)
  obtain rfl : 1 = n := Except.ok.inj h2
  exact ⟨⟨{ Oct.hull with charOrder := some 1 }, some am, some kern⟩, am, kern, wf_change (h := Oct.hull) oct_wf Oct.hull.valid (List.Sublist.refl _) none (some 1), rfl, hulls_cache h3 lstsq, rfl, rfl⟩

end Verif.Props
