import Verif.Model.PlotPerformance
import Verif.Props.PlotShapes
import Verif.Props.AmbiDecoders
import Verif.Props.MultiSignal
import Mathlib.Tactic

/-!
C135 (the figure of `plot.decoder_performance`).
-/

namespace Verif.Props
open Real Verif.Plot Verif.Utils Verif.Sph Verif.Decoder
open Verif.Sig (mapM_length)

/-! ### The lattice -/

theorem mem_npArange {a b s x : ℝ} (hs : 0 < s) : x ∈ npArange a b s ↔ ∃ k : ℕ, x = a + k * s ∧ x < b := by
  unfold npArange
  simp only [List.mem_map, List.mem_range]
  constructor
  · rintro ⟨k, hk, rfl⟩
    refine ⟨k, rfl, ?_⟩
    have h1 : (k : ℤ) < ⌈(b - a) / s⌉ := by omega
    have h2 := Int.lt_ceil.1 h1
    rw [Int.cast_natCast, lt_div_iff₀ hs] at h2
    linarith
  · rintro ⟨k, rfl, hk⟩
    refine ⟨k, ?_, rfl⟩
    have h2 : ((k : ℤ) : ℝ) < (b - a) / s := by rw [Int.cast_natCast, lt_div_iff₀ hs]; linarith
    have h1 := Int.lt_ceil.2 h2
    omega

theorem mem_meshDirs (azi zen : List ℝ) (d : ℝ × ℝ) : d ∈ meshDirs azi zen ↔ d.1 ∈ azi ∧ d.2 ∈ zen := by
  unfold meshDirs
  simp only [List.mem_flatMap, List.mem_map]
  constructor
  · rintro ⟨z, hz, a, ha, rfl⟩; exact ⟨ha, hz⟩
  · rintro ⟨ha, hz⟩; exact ⟨_, hz, _, ha, rfl⟩

/-! ### The number of rows of gains -/

theorem rows_length_of_map {α γ : Type} {x : Py α} {f : α → List γ} {rows : List γ} {n : ℕ} (h : x.map f = .ok rows) (hl : ∀ a, x = .ok a → (f a).length = n) :
    rows.length = n := by
  rcases x with e | a
  · cases h
  · cases h; exact hl a rfl

theorem perfGains_length {L : ℕ} (lstsq : Mat3 → Mat3) (pinv : {m n : ℕ} → Matrix (Fin m) (Fin n) ℝ → Matrix (Fin n) (Fin m) ℝ)
    (svd : {m n : ℕ} → Matrix (Fin m) (Fin n) ℝ → Matrix (Fin m) (Fin m) ℝ × Matrix (Fin n) (Fin n) ℝ) (r : Renderer) (N : Option ℕ) (s : Setup L)
    (dirs : List (ℝ × ℝ)) (rows : List (List ℝ)) (h : (perfGains lstsq pinv svd r N s dirs).1 = .ok rows) : rows.length = dirs.length := by
  have hv : ∀ rows', (vbap lstsq 2 (dirs.map dirPoint) none false s).1 = .ok rows' → rows'.length = dirs.length := by
    intro rows' h'
    unfold vbap at h'
    simp only [Bool.false_eq_true, if_false] at h'
    refine rows_length_of_map h' fun a ha => ?_
    rw [List.length_map]
    unfold vbapHull at ha
    refine rows_length_of_map ha fun b hb => ?_
    rw [List.length_map]
    unfold vbapSerial at hb
    rw [mapM_length _ _ _ hb, List.length_map]
  cases r <;> unfold perfGains at h <;> simp only at h
  case vbap =>
    by_cases hN : N.isSome
    · rw [if_pos hN] at h; cases h
    · rw [if_neg hN] at h; exact hv _ h
  case vbip =>
    by_cases hN : N.isSome
    · rw [if_pos hN] at h; cases h
    · rw [if_neg hN] at h
      unfold vbip at h
      exact rows_length_of_map h fun a ha => by rw [List.length_map]; exact hv _ ha
  case nls =>
    by_cases hN : N.isSome
    · rw [if_pos hN] at h; cases h
    · rw [if_neg hN] at h
      exact rows_length_of_map h fun a ha => by rw [List.length_map, mapM_length _ _ _ ha, List.length_map]
  case allrap => exact rows_length_of_map h fun a ha => by simp
  case allrap2 => exact rows_length_of_map h fun a ha => by simp
  case allrad =>
    rcases ho : perfOrder lstsq N s.toHull with e | n
    · rw [ho] at h; cases h
    · rw [ho] at h; exact rows_length_of_map h fun a ha => by simp
  case allrad2 =>
    rcases ho : perfOrder lstsq N s.toHull with e | n
    · rw [ho] at h; cases h
    · rw [ho] at h; exact rows_length_of_map h fun a ha => by simp
  all_goals
    rcases ho : perfOrder lstsq N s.toHull with e | n
    · rw [ho] at h; cases h
    · rw [ho] at h; exact rows_length_of_map h fun a ha => by simp

/-- What a successful call consists of. -/
theorem performance_parts {L : ℕ} {lstsq : Mat3 → Mat3} {pinv : {m n : ℕ} → Matrix (Fin m) (Fin n) ℝ → Matrix (Fin n) (Fin m) ℝ}
    {svd : {m n : ℕ} → Matrix (Fin m) (Fin n) ℝ → Matrix (Fin m) (Fin m) ℝ × Matrix (Fin n) (Fin n) ℝ} {s : Setup L} {name : String} {sa se : ℝ}
    {showLs : Bool} {N : Option ℕ} {fig : PerfFigure} (h : (decoderPerformance lstsq pinv svd s name sa se showLs N).1 = .ok fig) :
    ∃ ms : List Measures, ms.length = (meshDirs (perfAzi (sa * (π / 180))) (perfZen (se * (π / 180)))).length ∧
      fig.vertices = (meshDirs (perfAzi (sa * (π / 180))) (perfZen (se * (π / 180)))).zip ms ∧
      fig.maxAmplitude = scaleTop (ms.map Measures.amplitude) ∧ fig.maxEnergy = scaleTop (ms.map Measures.energy) ∧ fig.maxSpread = 90 ∧ fig.maxError = 90 := by
  unfold decoderPerformance at h
  simp only at h
  rcases hr : rendererOf name with e | r
  · rw [hr] at h; cases h
  · rw [hr] at h
    simp only at h
    rcases hg : (perfGains lstsq pinv svd r N s (meshDirs (perfAzi (sa * (π / 180))) (perfZen (se * (π / 180))))).1 with e | rows
    · rw [hg] at h; cases h
    · rw [hg] at h
      have hlen := perfGains_length lstsq pinv svd r N s _ rows hg
      change Except.map _ _ = _ at h
      rcases hm : ((meshDirs (perfAzi (sa * (π / 180))) (perfZen (se * (π / 180)))).zip rows).mapM
        (fun x => rowMeasures s.toHull x.1 x.2) with e | ms
      · rw [hm] at h; cases h
      · rw [hm] at h
        cases h
        refine ⟨ms, ?_, rfl, rfl, rfl, rfl, rfl⟩
        rw [mapM_length _ _ _ hm, List.length_zip, hlen, min_self]

/-- **C135** The measures are drawn on the lattice of all azimuths `-π + i·azi_steps` and zenith angles `j·ele_steps` up to (excluding) one step beyond `π`, whatever the
renderer: every direction has lattice points within one step below and above in both angles. -/
theorem C135_lattice {L : ℕ} (lstsq : Mat3 → Mat3) (pinv : {m n : ℕ} → Matrix (Fin m) (Fin n) ℝ → Matrix (Fin n) (Fin m) ℝ)
    (svd : {m n : ℕ} → Matrix (Fin m) (Fin n) ℝ → Matrix (Fin m) (Fin m) ℝ × Matrix (Fin n) (Fin n) ℝ) (s : Setup L) (name : String) (sa se : ℝ)
    (hsa : 0 < sa) (hse : 0 < se) (showLs : Bool) (N : Option ℕ) (fig : PerfFigure)
    (h : (decoderPerformance lstsq pinv svd s name sa se showLs N).1 = .ok fig) :
    (∀ a z : ℝ, (∃ m, ((a, z), m) ∈ fig.vertices) ↔
      ∃ i j : ℕ, a = -π + i * (sa * (π / 180)) ∧ z = j * (se * (π / 180)) ∧ a < π + sa * (π / 180) ∧ z < π + se * (π / 180)) ∧
    ∀ azi ∈ Set.Icc (-π) π, ∀ zen ∈ Set.Icc 0 π, ∃ a b y z : ℝ, (∀ p ∈ [(a, y), (a, z), (b, y), (b, z)], ∃ m, (p, m) ∈ fig.vertices) ∧
      a ≤ azi ∧ azi < a + sa * (π / 180) ∧ azi ≤ b ∧ b < azi + sa * (π / 180) ∧ y ≤ zen ∧ zen < y + se * (π / 180) ∧ zen ≤ z ∧ z < zen + se * (π / 180) := by
  obtain ⟨ms, hl, hv, -⟩ := performance_parts h
  have hp := pi_pos
  set σ := sa * (π / 180) with hσ
  set τ := se * (π / 180) with hτ
  have hσ0 : 0 < σ := by positivity
  have hτ0 : 0 < τ := by positivity
  have hfst : fig.vertices.map Prod.fst = meshDirs (perfAzi σ) (perfZen τ) := by rw [hv, List.map_fst_zip (by omega)]
  have hmem : ∀ a z : ℝ, (∃ m, ((a, z), m) ∈ fig.vertices) ↔ ∃ i j : ℕ, a = -π + i * σ ∧ z = j * τ ∧ a < π + σ ∧ z < π + τ := by
    intro a z
    have e1 : (∃ m, ((a, z), m) ∈ fig.vertices) ↔ (a, z) ∈ fig.vertices.map Prod.fst := by simp
    rw [e1, hfst, mem_meshDirs]
    unfold perfAzi perfZen
    rw [mem_npArange hσ0, mem_npArange hτ0]
    constructor
    · rintro ⟨⟨i, h1, h2⟩, j, h3, h4⟩; exact ⟨i, j, h1, by simpa using h3, h2, h4⟩
    · rintro ⟨i, j, h1, h3, h2, h4⟩; exact ⟨⟨i, h1, h2⟩, j, by simpa using h3, h4⟩
  refine ⟨hmem, fun azi hazi zen hzen => ?_⟩
  have low : ∀ (x s : ℝ), 0 ≤ x → 0 < s → ∃ i j : ℕ, i * s ≤ x ∧ x < i * s + s ∧ x ≤ j * s ∧ j * s < x + s := by
    intro x s hx hs
    refine ⟨⌊x / s⌋₊, ⌈x / s⌉₊, ?_, ?_, ?_, ?_⟩
    · have := Nat.floor_le (div_nonneg hx hs.le); rwa [le_div_iff₀ hs] at this
    · have := Nat.lt_floor_add_one (x / s); rw [div_lt_iff₀ hs] at this; linarith
    · have := Nat.le_ceil (x / s); rwa [div_le_iff₀ hs] at this
    · have := Nat.ceil_lt_add_one (div_nonneg hx hs.le)
      have h2 := mul_lt_mul_of_pos_right this hs
      rw [add_mul, div_mul_cancel₀ _ hs.ne'] at h2; linarith
  obtain ⟨i, i', a1, a2, a3, a4⟩ := low (azi + π) σ (by linarith [hazi.1]) hσ0
  obtain ⟨j, j', b1, b2, b3, b4⟩ := low zen τ hzen.1 hτ0
  have hz2 := hzen.2
  have ha2 := hazi.2
  refine ⟨-π + i * σ, -π + i' * σ, j * τ, j' * τ, ?_, by linarith, by linarith, by linarith, by linarith, by linarith, by linarith, by linarith, by linarith⟩
  intro p hp'
  simp only [List.mem_cons, List.not_mem_nil, or_false] at hp'
  rcases hp' with rfl | rfl | rfl | rfl
  · exact (hmem _ _).2 ⟨i, j, rfl, rfl, by linarith, by linarith⟩
  · exact (hmem _ _).2 ⟨i, j', rfl, rfl, by linarith, by linarith⟩
  · exact (hmem _ _).2 ⟨i', j, rfl, rfl, by linarith, by linarith⟩
  · exact (hmem _ _).2 ⟨i', j', rfl, rfl, by linarith, by linarith⟩

/-- **C135** The colour scales of amplitude and energy reach from zero to the largest drawn value, at least to one; those of spread and error end at 90 degrees. -/
theorem C135_scale {L : ℕ} (lstsq : Mat3 → Mat3) (pinv : {m n : ℕ} → Matrix (Fin m) (Fin n) ℝ → Matrix (Fin n) (Fin m) ℝ)
    (svd : {m n : ℕ} → Matrix (Fin m) (Fin n) ℝ → Matrix (Fin m) (Fin m) ℝ × Matrix (Fin n) (Fin n) ℝ) (s : Setup L) (name : String) (sa se : ℝ)
    (showLs : Bool) (N : Option ℕ) (fig : PerfFigure) (h : (decoderPerformance lstsq pinv svd s name sa se showLs N).1 = .ok fig) :
    (∀ v ∈ fig.vertices, v.2.amplitude ≤ fig.maxAmplitude ∧ v.2.energy ≤ fig.maxEnergy) ∧ 1 ≤ fig.maxAmplitude ∧ 1 ≤ fig.maxEnergy ∧
      (fig.maxAmplitude = 1 ∨ ∃ v ∈ fig.vertices, v.2.amplitude = fig.maxAmplitude) ∧ (fig.maxEnergy = 1 ∨ ∃ v ∈ fig.vertices, v.2.energy = fig.maxEnergy) ∧
      fig.maxSpread = 90 ∧ fig.maxError = 90 := by
  obtain ⟨ms, hl, hv, hA, hE, hS, hEr⟩ := performance_parts h
  have hsnd : fig.vertices.map Prod.snd = ms := by rw [hv, List.map_snd_zip (by omega)]
  have hin : ∀ m, m ∈ ms ↔ ∃ v ∈ fig.vertices, v.2 = m := by intro m; rw [← hsnd]; simp
  obtain ⟨a1, a2, a3⟩ := foldl_max_spec (ms.map Measures.amplitude) 1
  obtain ⟨e1, e2, e3⟩ := foldl_max_spec (ms.map Measures.energy) 1
  rw [hA, hE]
  unfold scaleTop
  refine ⟨fun v hv' => ⟨a2 _ ?_, e2 _ ?_⟩, a1, e1, ?_, ?_, hS, hEr⟩
  · exact List.mem_map.2 ⟨v.2, (hin _).2 ⟨v, hv', rfl⟩, rfl⟩
  · exact List.mem_map.2 ⟨v.2, (hin _).2 ⟨v, hv', rfl⟩, rfl⟩
  · rcases a3 with h | h
    · exact .inl h
    · obtain ⟨m, hm, he⟩ := List.mem_map.1 h
      obtain ⟨v, hv', rfl⟩ := (hin m).1 hm
      exact .inr ⟨v, hv', he⟩
  · rcases e3 with h | h
    · exact .inl h
    · obtain ⟨m, hm, he⟩ := List.mem_map.1 h
      obtain ⟨v, hv', rfl⟩ := (hin m).1 hm
      exact .inr ⟨v, hv', he⟩

/-! ### From gains to the figure -/

theorem zip_ofFn {α β : Type} (l : List α) (F : Fin l.length → β) : l.zip (List.ofFn F) = List.ofFn fun i => (l.get i, F i) := by
  apply List.ext_getElem
  · simp
  · intro i h1 h2; simp

theorem mapM_ofFn {α β : Type} {n : ℕ} (P : Fin n → α) (G : α → Py β) (Q : Fin n → β) (h : ∀ i, G (P i) = .ok (Q i)) :
    (List.ofFn P).mapM G = .ok (List.ofFn Q) := by
  induction n with
  | zero => simp; rfl
  | succ n ih =>
    rw [List.ofFn_succ, List.ofFn_succ, List.mapM_cons, h 0, ih _ _ fun i => h i.succ]
    rfl

/-- If the renderer returns the gains `g i` for the `i`-th direction, the figure shows their measures. -/
theorem performance_of_gains {L : ℕ} (lstsq : Mat3 → Mat3) (pinv : {m n : ℕ} → Matrix (Fin m) (Fin n) ℝ → Matrix (Fin n) (Fin m) ℝ)
    (svd : {m n : ℕ} → Matrix (Fin m) (Fin n) ℝ → Matrix (Fin m) (Fin m) ℝ × Matrix (Fin n) (Fin n) ℝ) (s : Setup L) (name : String) (r : Renderer)
    (hr : rendererOf name = .ok r) (sa se : ℝ) (showLs : Bool) (N : Option ℕ) (dirs : List (ℝ × ℝ))
    (hd : meshDirs (perfAzi (sa * (π / 180))) (perfZen (se * (π / 180))) = dirs) (g : Fin dirs.length → Fin L → ℝ)
    (hg : (perfGains lstsq pinv svd r N s dirs).1 = .ok (List.ofFn fun i => List.ofFn (g i))) :
    ∃ fig, (decoderPerformance lstsq pinv svd s name sa se showLs N).1 = .ok fig ∧
      ∀ v ∈ fig.vertices, ∃ i, v = (dirs.get i, measures s.toHull (dirPoint (dirs.get i)) (g i)) := by
  have hm : (dirs.zip (List.ofFn fun i => List.ofFn (g i))).mapM (fun x => rowMeasures s.toHull x.1 x.2)
      = .ok (List.ofFn fun i => measures s.toHull (dirPoint (dirs.get i)) (g i)) := by
    rw [zip_ofFn]
    apply mapM_ofFn
    intro i
    unfold rowMeasures
    rw [if_pos (by simp)]
    congr 2
    funext l
    simp
  unfold decoderPerformance
  simp only [hr, hd, hg]
  change ∃ fig, (Except.map _ _) = _ ∧ _
  rw [hm]
  refine ⟨_, rfl, fun v hv => ?_⟩
  simp only [zip_ofFn] at hv
  obtain ⟨i, rfl⟩ := (List.mem_ofFn' _ _).1 hv
  exact ⟨i, rfl⟩

/-! ### Ambisonic signals -/

/-- The spherical harmonics depend on the zenith angle through its cosine only. -/
theorem shVec_cos (N : ℕ) (azi zen zen' : ℝ) (h : cos zen = cos zen') : shVec N azi zen = shVec N azi zen' := by
  funext q
  have e : ∀ (m : ℕ) (n : ℕ), sphHarmNonneg m n azi zen = sphHarmNonneg m n azi zen' := by
    intro m n; unfold sphHarmNonneg; rw [h]
  unfold shVec realSH sphHarm
  simp only [e]

/-- The directions of `epad`, `mad` and `sad` are rendered one by one. -/
theorem ambisonic_rows {L N : ℕ} (lstsq : Mat3 → Mat3) (pinv : {m n : ℕ} → Matrix (Fin m) (Fin n) ℝ → Matrix (Fin n) (Fin m) ℝ)
    (svd : {m n : ℕ} → Matrix (Fin m) (Fin n) ℝ → Matrix (Fin m) (Fin m) ℝ × Matrix (Fin n) (Fin n) ℝ) (s : Setup L) (r : Renderer)
    (hr : r = .sad ∨ r = .mad ∨ r = .epad) (dirs : List (ℝ × ℝ)) :
    ∃ o : Matrix (Fin L) (Fin dirs.length) ℝ, (perfGains lstsq pinv svd r (some N) s dirs).1 = .ok (List.ofFn fun i => List.ofFn fun l => o l i) ∧
      ∀ i, (match r with
        | .sad => sad lstsq (fun q (_ : Fin 1) => shVec N (dirs.get i).1 (dirs.get i).2 q) s.toHull (some N)
        | .mad => mad lstsq pinv (fun q (_ : Fin 1) => shVec N (dirs.get i).1 (dirs.get i).2 q) s.toHull (some N)
        | _ => epad lstsq svd (fun q (_ : Fin 1) => shVec N (dirs.get i).1 (dirs.get i).2 q) s.toHull (some N)) = .ok fun l _ => o l i := by
  rcases hr with rfl | rfl | rfl
  · have e := (sad_eq lstsq (perfSh N dirs) s.toHull (some N) N rfl).trans (applyTruncated_ok _ _ le_rfl)
    refine ⟨_, by
      unfold perfGains perfOrder
      simp only
      change Except.map _ (sad lstsq (perfSh N dirs) s.toHull (some N)) = _
      rw [e]; rfl, fun i => ((sad_eq lstsq _ s.toHull (some N) N rfl).trans (applyTruncated_ok _ _ le_rfl)).trans rfl⟩
  · have e := (mad_eq lstsq pinv (perfSh N dirs) s.toHull (some N) N rfl).trans (applyTruncated_ok _ _ le_rfl)
    refine ⟨_, by
      unfold perfGains perfOrder
      simp only
      change Except.map _ (mad lstsq pinv (perfSh N dirs) s.toHull (some N)) = _
      rw [e]; rfl, fun i => ((mad_eq lstsq pinv _ s.toHull (some N) N rfl).trans (applyTruncated_ok _ _ le_rfl)).trans rfl⟩
  · have e := (epad_eq lstsq svd (perfSh N dirs) s.toHull (some N) N rfl).trans (applyTruncated_ok _ _ le_rfl)
    refine ⟨_, by
      unfold perfGains perfOrder
      simp only
      change Except.map _ (epad lstsq svd (perfSh N dirs) s.toHull (some N)) = _
      rw [e]; rfl, fun i => ((epad_eq lstsq svd _ s.toHull (some N) N rfl).trans (applyTruncated_ok _ _ le_rfl)).trans rfl⟩

/-- **C135** The figure of `epad` with at least `(N+1)²` loudspeakers shows the energy one in every direction, on every setup, so its colour scale ends at one. -/
theorem C135_epad {L N : ℕ} (lstsq : Mat3 → Mat3) (pinv : {m n : ℕ} → Matrix (Fin m) (Fin n) ℝ → Matrix (Fin n) (Fin m) ℝ)
    (svd : {m n : ℕ} → Matrix (Fin m) (Fin n) ℝ → Matrix (Fin m) (Fin m) ℝ × Matrix (Fin n) (Fin n) ℝ)
    (hsvd : ∀ {m n : ℕ} (A : Matrix (Fin m) (Fin n) ℝ), IsSvd A (svd A).1 (svd A).2) (s : Setup L) (hL : (N + 1) ^ 2 ≤ L) (sa se : ℝ) (showLs : Bool) :
    ∃ fig, (decoderPerformance lstsq pinv svd s "EPAD" sa se showLs (some N)).1 = .ok fig ∧ (∀ v ∈ fig.vertices, v.2.energy = 1) ∧ fig.maxEnergy = 1 := by
  have hr : rendererOf "EPAD" = .ok .epad := by decide +kernel
  obtain ⟨o, ho, hcol⟩ := ambisonic_rows (N := N) lstsq pinv svd s .epad (.inr (.inr rfl)) (meshDirs (perfAzi (sa * (π / 180))) (perfZen (se * (π / 180))))
  obtain ⟨fig, hf, hv⟩ := performance_of_gains lstsq pinv svd s "EPAD" .epad hr sa se showLs (some N) _ rfl (fun i l => o l i) ho
  have hone : ∀ v ∈ fig.vertices, v.2.energy = 1 := by
    intro v hv'
    obtain ⟨i, rfl⟩ := hv v hv'
    set d := (meshDirs (perfAzi (sa * (π / 180))) (perfZen (se * (π / 180)))).get i
    have hc := hcol i
    simp only at hc
    rw [shVec_cos N _ _ (arccos (cos d.2)) (cos_arccos (neg_one_le_cos _) (cos_le_one _)).symm] at hc
    obtain ⟨out, h1, h2⟩ := C42_plane_wave lstsq svd hsvd (fun _ : Fin 1 => 1) d.1 (arccos (cos d.2)) ⟨arccos_nonneg _, arccos_le_pi _⟩ N s.toHull hL
    have hF : srcToSh (fun _ : Fin 1 => fun _ : Fin 1 => (1 : ℝ)) (fun _ => d.1) (fun _ => arccos (cos d.2)) N = fun q (_ : Fin 1) => shVec N d.1 (arccos (cos d.2)) q := by
      funext q s
      refine (Matrix.mul_apply).trans ?_
      rw [Fin.sum_univ_one]
      exact mul_one _
    rw [hF, hc] at h1
    cases h1
    have := h2 0
    rw [one_pow] at this
    exact this
  refine ⟨fig, hf, hone, ?_⟩
  obtain ⟨-, -, -, -, h5, -⟩ := C135_scale lstsq pinv svd s "EPAD" sa se showLs (some N) fig hf
  rcases h5 with h | ⟨v, hv', h⟩
  · exact h
  · rw [← h]; exact hone v hv'

/-- The measures of a direction whose energy vector points to `(azi, zen')` with `zen'` the zenith angle with the same cosine. -/
theorem measures_pointed {L : ℕ} (h : Hull L) (g : Fin L → ℝ) (k azi zen zen' : ℝ) (hk : 1 / 2 ≤ k) (hk1 : k ≤ 1)
    (e : rE (fun l c => h.points l c / h.d l) (fun l => g l / h.d l ^ h.a) = (some fun c => k * dirVec azi zen' c, k)) :
    (measures h (dirPoint (azi, zen)) g).spread = 2 * arccos k * 180 / π ∧
      (measures h (dirPoint (azi, zen)) g).error = some (arccos (cos (zen - zen')) * (180 / π)) := by
  unfold measures
  simp only [e, Option.map_some]
  rw [max_eq_left (by linarith : (0 : ℝ) ≤ k), min_eq_left hk1, max_eq_left (by linarith [(by norm_num : (10e-15 : ℝ) ≤ 1 / 2)] : (10e-15 : ℝ) ≤ k)]
  refine ⟨rfl, ?_⟩
  have hk0 : k ≠ 0 := by linarith
  have hsum : ∑ c, dirPoint (azi, zen) c * (k * dirVec azi zen' c / k) = cos (zen - zen') := by
    have : ∀ c, k * dirVec azi zen' c / k = dirVec azi zen' c := fun c => mul_div_cancel_left₀ _ hk0
    simp only [this]
    simp [dirPoint, sph2cart, dirVec, Fin.sum_univ_three, cos_sub]
    have := sin_sq_add_cos_sq azi
    linear_combination (sin zen * sin zen') * this
  rw [hsum, max_eq_left (neg_one_le_cos _), min_eq_left (cos_le_one _)]

/-- Two renderings of the same plane wave on a design have the same energy vector. -/
theorem design_rE {L N t : ℕ} (lstsq : Mat3 → Mat3) (pinv : {m n : ℕ} → Matrix (Fin m) (Fin n) ℝ → Matrix (Fin n) (Fin m) ℝ)
    (hpinv : ∀ {m n : ℕ} (A : Matrix (Fin m) (Fin n) ℝ), IsPinv A (pinv A))
    (svd : {m n : ℕ} → Matrix (Fin m) (Fin n) ℝ → Matrix (Fin m) (Fin m) ℝ × Matrix (Fin n) (Fin n) ℝ)
    (hsvd : ∀ {m n : ℕ} (A : Matrix (Fin m) (Fin n) ℝ), IsSvd A (svd A).1 (svd A).2) (s : Setup L) (hu : ∀ l, ∑ c, s.points l c ^ 2 = 1)
    (hd : IsTDesign t (fun l => (dirOf (s.points l)).1) (fun l => (dirOf (s.points l)).2)) (ht : 2 * N + 1 ≤ t) (r : Renderer)
    (azi zen : ℝ) (hz : zen ∈ Set.Icc 0 π) (g : Fin L → ℝ)
    (hg : (match r with
        | .sad => sad lstsq (fun q (_ : Fin 1) => shVec N azi zen q) s.toHull (some N)
        | .mad => mad lstsq pinv (fun q (_ : Fin 1) => shVec N azi zen q) s.toHull (some N)
        | _ => epad lstsq svd (fun q (_ : Fin 1) => shVec N azi zen q) s.toHull (some N)) = .ok fun l _ => g l) :
    rE s.points g = (some fun c => N / (N + 1) * dirVec azi zen c, (N : ℝ) / (N + 1)) := by
  obtain ⟨o₁, o₂, o₃, h1, h2, h3, h4⟩ := C112_weighted lstsq pinv hpinv svd hsvd s.toHull hu hd ht (fun _ => 1) 0 (Nat.zero_le _) one_ne_zero
    (fun _ : Fin 1 => 1) azi zen hz
  have hF : weightedSource N (fun _ => 1) (fun _ : Fin 1 => 1) azi zen = fun q (_ : Fin 1) => shVec N azi zen q := by
    funext q s
    rw [weightedSource_apply]
    simp [repVec]
  rw [hF] at h1 h2 h3
  have hpos : |(N : ℝ) / (N + 1)| = N / (N + 1) := abs_of_nonneg (by positivity)
  have key : ∀ o ∈ [o₁, o₂, o₃], (Except.ok o : Py _) = .ok (fun l _ => g l) → rE s.points g = (some fun c => N / (N + 1) * dirVec azi zen c, (N : ℝ) / (N + 1)) := by
    intro o ho he
    cases he
    have := h4 0 one_ne_zero _ ho
    rw [rE_basic, hpos] at this
    exact this
  cases r <;> simp only at hg
  case sad => exact key o₁ (by simp) (h1.symm.trans hg)
  case mad => exact key o₂ (by simp) (h2.symm.trans hg)
  all_goals exact key o₃ (by simp) (h3.symm.trans hg)

/-- **C135** On a design of strength `2N+1` (unit distances) the figures of `sad`, `mad` and `epad` show the spread `2 arccos(N/(N+1))` everywhere and no error in the rows up to the
zenith angle `π`.  A row beyond `π`, which exists unless 180 is a multiple of `ele_steps`, shows an error of twice the angle by which it exceeds `π`: there the
spherical harmonics and the points belong to opposite azimuths. -/
theorem C135_design {L N t : ℕ} (lstsq : Mat3 → Mat3) (pinv : {m n : ℕ} → Matrix (Fin m) (Fin n) ℝ → Matrix (Fin n) (Fin m) ℝ)
    (hpinv : ∀ {m n : ℕ} (A : Matrix (Fin m) (Fin n) ℝ), IsPinv A (pinv A))
    (svd : {m n : ℕ} → Matrix (Fin m) (Fin n) ℝ → Matrix (Fin m) (Fin m) ℝ × Matrix (Fin n) (Fin n) ℝ)
    (hsvd : ∀ {m n : ℕ} (A : Matrix (Fin m) (Fin n) ℝ), IsSvd A (svd A).1 (svd A).2) (s : Setup L) (hu : ∀ l, ∑ c, s.points l c ^ 2 = 1)
    (hdist : ∀ l, s.d l = 1) (hd : IsTDesign t (fun l => (dirOf (s.points l)).1) (fun l => (dirOf (s.points l)).2)) (hN : 1 ≤ N) (ht : 2 * N + 1 ≤ t)
    (name : String) (hname : rendererOf name = .ok .sad ∨ rendererOf name = .ok .mad ∨ rendererOf name = .ok .epad) (sa se : ℝ) (hsa : 0 < sa) (hse : 0 < se)
    (hse' : se ≤ 90) (showLs : Bool) :
    ∃ fig, (decoderPerformance lstsq pinv svd s name sa se showLs (some N)).1 = .ok fig ∧ ∀ v ∈ fig.vertices,
      v.2.spread = 2 * arccos (N / (N + 1)) * 180 / π ∧ (v.1.2 ≤ π → v.2.error = some 0) ∧
      (π < v.1.2 → v.2.error = some (2 * ((v.1.2 - π) * (180 / π)))) := by
  obtain ⟨r, hr, hr'⟩ : ∃ r, rendererOf name = .ok r ∧ (r = .sad ∨ r = .mad ∨ r = .epad) := by
    rcases hname with h | h | h
    · exact ⟨_, h, .inl rfl⟩
    · exact ⟨_, h, .inr (.inl rfl)⟩
    · exact ⟨_, h, .inr (.inr rfl)⟩
  have hp := pi_pos
  obtain ⟨o, ho, hcol⟩ := ambisonic_rows (N := N) lstsq pinv svd s r hr' (meshDirs (perfAzi (sa * (π / 180))) (perfZen (se * (π / 180))))
  obtain ⟨fig, hf, hv⟩ := performance_of_gains lstsq pinv svd s name r hr sa se showLs (some N) _ rfl (fun i l => o l i) ho
  refine ⟨fig, hf, fun v hv' => ?_⟩
  have hlat := (C135_lattice lstsq pinv svd s name sa se hsa hse showLs (some N) fig hf).1 v.1.1 v.1.2
  obtain ⟨-, j, -, hj, -, hlt⟩ := hlat.1 ⟨v.2, hv'⟩
  have hz0 : 0 ≤ v.1.2 := by rw [hj]; positivity
  have hz1 : v.1.2 ≤ 3 * π / 2 := by
    have : se * (π / 180) ≤ 90 * (π / 180) := by gcongr
    linarith
  obtain ⟨i, rfl⟩ := hv v hv'
  simp only at hz0 hz1 hlt ⊢
  have hc := hcol i
  set d := (meshDirs (perfAzi (sa * (π / 180))) (perfZen (se * (π / 180)))).get i with hdd
  obtain ⟨a, z⟩ := d
  simp only at hz0 hz1 hc ⊢
  have hk : (1 / 2 : ℝ) ≤ N / (N + 1) := by
    have : (1 : ℝ) ≤ N := by exact_mod_cast hN
    rw [le_div_iff₀ (by positivity)]; linarith
  have hk1 : (N : ℝ) / (N + 1) ≤ 1 := by rw [div_le_one (by positivity)]; linarith
  have key : ∀ z', cos z = cos z' → z' ∈ Set.Icc 0 π → (measures s.toHull (dirPoint (a, z)) fun l => o l i).spread = 2 * arccos (N / (N + 1)) * 180 / π ∧
      (measures s.toHull (dirPoint (a, z)) fun l => o l i).error = some (arccos (cos (z - z')) * (180 / π)) := by
    intro z' hzz hz'
    rw [shVec_cos N a z z' hzz] at hc
    refine measures_pointed s.toHull _ (N / (N + 1)) a z z' hk hk1 ?_
    rw [← design_rE lstsq pinv hpinv svd hsvd s hu hd ht r a z' hz' (fun l => o l i) hc]
    congr 1
    · funext l c; rw [hdist, div_one]
    · funext l; rw [hdist, Real.one_rpow, div_one]
  by_cases hle : z ≤ π
  · obtain ⟨k1, k2⟩ := key z rfl ⟨hz0, hle⟩
    refine ⟨k1, fun _ => ?_, fun h => absurd h (not_lt.2 hle)⟩
    rw [k2, sub_self, cos_zero, arccos_one, zero_mul]
  · rw [not_le] at hle
    obtain ⟨k1, k2⟩ := key (2 * π - z) (by rw [cos_two_pi_sub]) ⟨by linarith, by linarith⟩
    refine ⟨k1, fun h => absurd h (not_le.2 hle), fun _ => ?_⟩
    rw [k2, show z - (2 * π - z) = 2 * (z - π) by ring, arccos_cos (by linarith) (by linarith)]
    congr 1; ring

/-- **C135** (holds if 180 is a multiple of `ele_steps`): no error is shown anywhere for `sad`, `mad` and `epad` on a design.  What is missing: other steps, see
`C135_error_fails`. -/
theorem C135_error_partial {L N t : ℕ} (lstsq : Mat3 → Mat3) (pinv : {m n : ℕ} → Matrix (Fin m) (Fin n) ℝ → Matrix (Fin n) (Fin m) ℝ)
    (hpinv : ∀ {m n : ℕ} (A : Matrix (Fin m) (Fin n) ℝ), IsPinv A (pinv A))
    (svd : {m n : ℕ} → Matrix (Fin m) (Fin n) ℝ → Matrix (Fin m) (Fin m) ℝ × Matrix (Fin n) (Fin n) ℝ)
    (hsvd : ∀ {m n : ℕ} (A : Matrix (Fin m) (Fin n) ℝ), IsSvd A (svd A).1 (svd A).2) (s : Setup L) (hu : ∀ l, ∑ c, s.points l c ^ 2 = 1)
    (hdist : ∀ l, s.d l = 1) (hd : IsTDesign t (fun l => (dirOf (s.points l)).1) (fun l => (dirOf (s.points l)).2)) (hN : 1 ≤ N) (ht : 2 * N + 1 ≤ t)
    (name : String) (hname : rendererOf name = .ok .sad ∨ rendererOf name = .ok .mad ∨ rendererOf name = .ok .epad) (sa se : ℝ) (hsa : 0 < sa) (hse : 0 < se)
    (hse' : se ≤ 90) (n : ℕ) (hn : n * se = 180) (showLs : Bool) :
    ∃ fig, (decoderPerformance lstsq pinv svd s name sa se showLs (some N)).1 = .ok fig ∧ ∀ v ∈ fig.vertices, v.2.error = some 0 := by
  obtain ⟨fig, hf, hv⟩ := C135_design lstsq pinv hpinv svd hsvd s hu hdist hd hN ht name hname sa se hsa hse hse' showLs
  refine ⟨fig, hf, fun v hv' => (hv v hv').2.1 ?_⟩
  obtain ⟨-, j, -, hj, -, hlt⟩ := ((C135_lattice lstsq pinv svd s name sa se hsa hse showLs (some N) fig hf).1 v.1.1 v.1.2).1 ⟨v.2, hv'⟩
  have hp := pi_pos
  have hst : 0 < se * (π / 180) := by positivity
  have hpi : π = n * (se * (π / 180)) := by
    rw [← mul_assoc, hn]; field_simp
  have hlt' : (j : ℝ) * (se * (π / 180)) < (n + 1) * (se * (π / 180)) := by rw [← hj]; linarith
  have hjn : (j : ℝ) < n + 1 := lt_of_mul_lt_mul_right hlt' hst.le
  have : j ≤ n := by
    have : j < n + 1 := by exact_mod_cast hjn
    omega
  rw [hj]
  conv_rhs => rw [hpi]
  have : (j : ℝ) ≤ n := by exact_mod_cast this
  gcongr

/-- **C135** Fails for `ele_steps = 7`: the first order sampling decoder on the corners of a cube is shown with an error of 4 degrees at the zenith angle of 182 degrees,
although it has no error in any direction. -/
theorem C135_error_fails (pinv : {m n : ℕ} → Matrix (Fin m) (Fin n) ℝ → Matrix (Fin n) (Fin m) ℝ)
    (hpinv : ∀ {m n : ℕ} (A : Matrix (Fin m) (Fin n) ℝ), IsPinv A (pinv A))
    (svd : {m n : ℕ} → Matrix (Fin m) (Fin n) ℝ → Matrix (Fin m) (Fin m) ℝ × Matrix (Fin n) (Fin n) ℝ)
    (hsvd : ∀ {m n : ℕ} (A : Matrix (Fin m) (Fin n) ℝ), IsSvd A (svd A).1 (svd A).2) :
    ∃ (s : Setup 8) (fig : PerfFigure), (decoderPerformance id pinv svd s "SAD" 5 7 true (some 1)).1 = .ok fig ∧
      (∀ azi, ∀ zen ∈ Set.Icc 0 π, ∃ m, performanceSad id s.toHull 1 azi zen = .ok m ∧ m.error = some 0) ∧
      ∃ v ∈ fig.vertices, v.1 = (-π, 182 * (π / 180)) ∧ v.2.error = some 4 := by
  obtain ⟨azi, zen, hd⟩ := cube_design
  let h : Hull 8 := { points := fun l => dirVec (azi l) (zen l), listener := 0, d := 1, a := 1, simplices := [], centroids := [], faceAreas := [], faceNormals := [], barycenter := 0, encloses := [], valid := [], invBase := none, charOrder := none }
  have hu : ∀ l, ∑ c, h.points l c ^ 2 = 1 := fun l => by
    have := dir_self (azi l) (zen l)
    rw [← this]; exact Finset.sum_congr rfl fun c _ => sq _
  have hp := pi_pos
  obtain ⟨fig, hf, hv⟩ := C135_design (N := 1) id pinv hpinv svd hsvd ⟨h, none, none⟩ hu (fun _ => rfl) (design_points hd) le_rfl (by norm_num) "SAD"
    (.inl (by decide +kernel)) 5 7 (by norm_num) (by norm_num) (by norm_num) true
  refine ⟨⟨h, none, none⟩, fig, hf, fun a z hz => ?_, ?_⟩
  · obtain ⟨m, h1, -, h3⟩ := C123_sad (N := 1) id h hu (fun _ => rfl) (design_points hd) (by norm_num) a z hz
    exact ⟨m, h1, h3 le_rfl⟩
  · obtain ⟨m, hm⟩ := ((C135_lattice id pinv svd ⟨h, none, none⟩ "SAD" 5 7 (by norm_num) (by norm_num) true (some 1) fig hf).1 (-π) (182 * (π / 180))).2
      ⟨0, 26, by simp, by push_cast; ring, by linarith, by linarith⟩
    refine ⟨_, hm, rfl, ?_⟩
    rw [(hv _ hm).2.2 (by simp only; linarith)]
    congr 1
    field_simp
    ring

/-! ### Nearest loudspeaker and markers -/

/-- **C135** The figure of nearest loudspeaker selection shows no spread, and everywhere the smallest angle to a loudspeaker as error. -/
theorem C135_nls {L : ℕ} (hL : 0 < L) (lstsq : Mat3 → Mat3) (pinv : {m n : ℕ} → Matrix (Fin m) (Fin n) ℝ → Matrix (Fin n) (Fin m) ℝ)
    (svd : {m n : ℕ} → Matrix (Fin m) (Fin n) ℝ → Matrix (Fin m) (Fin m) ℝ × Matrix (Fin n) (Fin n) ℝ) (s : Setup L)
    (hd : ∀ l, s.d l = norm3 (s.points l)) (hpos : ∀ l, s.points l ≠ 0) (sa se : ℝ) (showLs : Bool) :
    ∃ fig, (decoderPerformance lstsq pinv svd s "NLS" sa se showLs none).1 = .ok fig ∧ ∀ v ∈ fig.vertices,
      let dir : Vec3 := ![cos v.1.1 * sin v.1.2, sin v.1.1 * sin v.1.2, cos v.1.2]
      v.2.spread = 0 ∧ ∃ i, v.2.error = some (angleBetween dir (s.points i) * (180 / π)) ∧ ∀ l, angleBetween dir (s.points i) ≤ angleBetween dir (s.points l) := by
  have hr : rendererOf "NLS" = .ok .nls := by decide +kernel
  have hdir : ∀ d : ℝ × ℝ, dirPoint d = ![cos d.1 * sin d.2, sin d.1 * sin d.2, cos d.2] := by
    intro d; simp [dirPoint, sph2cart]
  have hn : ∀ d, norm3 (dirPoint d) = 1 := by
    intro d
    rw [hdir]
    unfold norm3 dotProduct
    rw [Fin.sum_univ_three]
    have h1 := sin_sq_add_cos_sq d.1
    have h2 := sin_sq_add_cos_sq d.2
    rw [show (1 : ℝ) = √1 from sqrt_one.symm]
    congr 1
    simp
    linear_combination (sin d.2 ^ 2) * h1 + h2
  choose i m h1 h2 h3 h4 h5 h6 using fun d => C123_nls hL s.toHull hd hpos (dirPoint d) (hn d)
  have hg : ∀ d, ∃ g, nearestLoudspeaker s.toHull (dirPoint d) = .ok g ∧ measures s.toHull (dirPoint d) g = m d := by
    intro d
    have := h1 d
    unfold performanceNls at this
    rcases hx : nearestLoudspeaker s.toHull (dirPoint d) with e | g
    · rw [hx] at this; cases this
    · rw [hx] at this
      exact ⟨g, rfl, Except.ok.inj this⟩
  choose g hg1 hg2 using hg
  set dirs := meshDirs (perfAzi (sa * (π / 180))) (perfZen (se * (π / 180))) with hdirs
  obtain ⟨fig, hf, hv⟩ := performance_of_gains lstsq pinv svd s "NLS" .nls hr sa se showLs none dirs rfl (fun i => g (dirs.get i)) (by
    unfold perfGains
    simp only [Option.isSome_none, Bool.false_eq_true, if_false]
    have : (dirs.map dirPoint).mapM (nearestLoudspeaker s.toHull) = .ok (List.ofFn fun i => g (dirs.get i)) := by
      rw [show dirs.map dirPoint = List.ofFn fun i => dirPoint (dirs.get i) by
        apply List.ext_getElem <;> simp]
      exact mapM_ofFn _ _ _ fun i => hg1 _
    rw [this]
    change Except.ok (List.map List.ofFn (List.ofFn fun i => g (dirs.get i))) = _
    rw [List.map_ofFn]
    rfl)
  refine ⟨fig, hf, fun v hv' => ?_⟩
  obtain ⟨k, rfl⟩ := hv v hv'
  simp only
  rw [← hdir, hg2]
  exact ⟨h5 _, i _, h6 _, h2 _⟩

/-- **C135** With `show_ls` every loudspeaker is marked once, in its order, at the azimuth and zenith angle of its direction, inside the axes; without it none is. -/
theorem C135_markers {L : ℕ} (lstsq : Mat3 → Mat3) (pinv : {m n : ℕ} → Matrix (Fin m) (Fin n) ℝ → Matrix (Fin n) (Fin m) ℝ)
    (svd : {m n : ℕ} → Matrix (Fin m) (Fin n) ℝ → Matrix (Fin m) (Fin m) ℝ × Matrix (Fin n) (Fin n) ℝ) (s : Setup L) (hd : ∀ l, s.d l = norm3 (s.points l))
    (hpos : ∀ l, s.points l ≠ 0) (name : String) (sa se : ℝ) (hsa : 0 < sa) (hse : 0 < se) (showLs : Bool) (N : Option ℕ) (fig : PerfFigure)
    (h : (decoderPerformance lstsq pinv svd s name sa se showLs N).1 = .ok fig) :
    (showLs = false → fig.markers = []) ∧ (showLs = true → fig.markers.length = L ∧ ∀ l : Fin L, ∃ a z, fig.markers[(l : ℕ)]? = some (a, z) ∧
      s.points l 0 = s.d l * (cos a * sin z) ∧ s.points l 1 = s.d l * (sin a * sin z) ∧ s.points l 2 = s.d l * cos z ∧
      fig.xlim.1 < a ∧ a < fig.xlim.2 ∧ fig.ylim.1 < z ∧ z < fig.ylim.2) := by
  have hp := pi_pos
  unfold decoderPerformance at h
  simp only at h
  rcases hr : rendererOf name with e | r
  · rw [hr] at h; cases h
  · rw [hr] at h
    simp only at h
    rcases hg : (perfGains lstsq pinv svd r N s (meshDirs (perfAzi (sa * (π / 180))) (perfZen (se * (π / 180))))).1 with e | rows
    · rw [hg] at h; cases h
    · rw [hg] at h
      change Except.map _ _ = _ at h
      rcases hm : ((meshDirs (perfAzi (sa * (π / 180))) (perfZen (se * (π / 180)))).zip rows).mapM
        (fun x => rowMeasures s.toHull x.1 x.2) with e | ms
      · rw [hm] at h; cases h
      · rw [hm] at h
        cases h
        constructor
        · rintro rfl; rfl
        · rintro rfl
          refine ⟨by simp, fun l => ?_⟩
          have hn := norm3_pos (hpos l)
          have hdl : s.d l ≠ 0 := by rw [hd]; exact hn.ne'
          have hunit : (s.points l 0 / s.d l) ^ 2 + (s.points l 1 / s.d l) ^ 2 + (s.points l 2 / s.d l) ^ 2 = 1 := by
            have := ls_unit s.toHull hd hpos l
            rw [Fin.sum_univ_three] at this; exact this
          have h0 : (s.points l 0 / s.d l, s.points l 1 / s.d l, s.points l 2 / s.d l) ≠ (0, 0, 0) := by
            intro h
            simp only [Prod.mk.injEq] at h
            rw [h.1, h.2.1, h.2.2] at hunit
            norm_num at hunit
          have hc := C01_sph2cart_cart2sph _ _ _ false false h0 (by simp)
          have hr1 := C01_ranges (s.points l 0 / s.d l) (s.points l 1 / s.d l) (s.points l 2 / s.d l) false
          set p := cart2sph (s.points l 0 / s.d l) (s.points l 1 / s.d l) (s.points l 2 / s.d l) false false with hp'
          have hr0 : p.2.2 = 1 := by
            change √((s.points l 0 / s.d l) ^ 2 + (s.points l 1 / s.d l) ^ 2 + (s.points l 2 / s.d l) ^ 2) = 1
            rw [hunit, sqrt_one]
          unfold sph2cart at hc
          simp only [Prod.mk.injEq, hr0, one_mul] at hc
          obtain ⟨c1, c2, c3⟩ := hc
          refine ⟨p.1, p.2.1, by simp [hp'], ?_, ?_, ?_, ?_, ?_, ?_, ?_⟩
          · rw [c1]; field_simp
          · rw [c2]; field_simp
          · rw [c3]; field_simp
          · have := hr1.1.1
            have : 0 < sa * (π / 180) := by positivity
            simp only; linarith [hr1.1.1]
          · have : 0 < sa * (π / 180) := by positivity
            simp only; linarith [hr1.1.2]
          · have : 0 < se * (π / 180) := by positivity
            simp only; linarith [(hr1.2.2 false).1]
          · have : 0 < se * (π / 180) := by positivity
            simp only; linarith [(hr1.2.2 false).2]

/-- **C135** An unknown renderer is a `ValueError`, and the setup stays as it is. -/
theorem C135_unknown {L : ℕ} (lstsq : Mat3 → Mat3) (pinv : {m n : ℕ} → Matrix (Fin m) (Fin n) ℝ → Matrix (Fin n) (Fin m) ℝ)
    (svd : {m n : ℕ} → Matrix (Fin m) (Fin n) ℝ → Matrix (Fin m) (Fin m) ℝ × Matrix (Fin n) (Fin n) ℝ) (s : Setup L) (name : String) (sa se : ℝ)
    (showLs : Bool) (N : Option ℕ)
    (hname : name.toLower ∉ ["vbap", "vbip", "allrap", "allrap2", "nls", "allrad", "allrad2", "epad", "mad", "sad"]) :
    decoderPerformance lstsq pinv svd s name sa se showLs N = (.error .valueError, s) := by
  unfold decoderPerformance
  simp only [C123_names.2.2 name hname]

/-- The setup of an octahedron: the figure of nearest loudspeaker selection in steps of 5 and 3 degrees exists, and the marked loudspeakers are inside the axes. -/
example : ∃ fig, (decoderPerformance id (fun _ => 0) (fun _ => (0, 0)) ⟨Oct.hull, none, none⟩ "NLS" 5 3 true none).1 = .ok fig ∧ fig.markers.length = 6 ∧
    (∀ v ∈ fig.vertices, v.2.spread = 0) ∧ ∃ m, ((-π, 0), m) ∈ fig.vertices := by
  obtain ⟨fig, hf, hv⟩ := C135_nls (L := 6) (by norm_num) id (fun _ => 0) (fun _ => (0, 0)) ⟨Oct.hull, none, none⟩ (fun l => (Oct.norm_pts l).symm) Oct.pts_ne 5 3 true
  have hp := pi_pos
  refine ⟨fig, hf, ((C135_markers id _ _ ⟨Oct.hull, none, none⟩ (fun l => (Oct.norm_pts l).symm) Oct.pts_ne "NLS" 5 3 (by norm_num) (by norm_num) true none fig hf).2 rfl).1,
    fun v hv' => (hv v hv').1, ?_⟩
  exact ((C135_lattice id _ _ ⟨Oct.hull, none, none⟩ "NLS" 5 3 (by norm_num) (by norm_num) true none fig hf).1 (-π) 0).2
    ⟨0, 0, by simp, by simp, by linarith, by linarith⟩

/-- `C135_epad` on an octahedron at first order. -/
example : ∃ (svd : {m n : ℕ} → Matrix (Fin m) (Fin n) ℝ → Matrix (Fin m) (Fin m) ℝ × Matrix (Fin n) (Fin n) ℝ) (fig : PerfFigure),
    (decoderPerformance id (fun _ => 0) svd ⟨Oct.hull, none, none⟩ "EPAD" 5 7 true (some 1)).1 = .ok fig ∧ fig.maxEnergy = 1 ∧ ∃ v ∈ fig.vertices, v.2.energy = 1 := by
  choose U V h using fun (m n : ℕ) (A : Matrix (Fin m) (Fin n) ℝ) => exists_svd A
  obtain ⟨fig, h1, h2, h3⟩ := C135_epad (N := 1) id (fun _ => 0) (fun {m n} A => (U m n A, V m n A)) (fun A => h _ _ A) ⟨Oct.hull, none, none⟩ (by norm_num) 5 7 true
  have hp := pi_pos
  obtain ⟨m, hm⟩ := ((C135_lattice id _ _ ⟨Oct.hull, none, none⟩ "EPAD" 5 7 (by norm_num) (by norm_num) true (some 1) fig h1).1 (-π) 0).2
    ⟨0, 0, by simp, by simp, by linarith, by linarith⟩
  exact ⟨_, fig, h1, h3, _, hm, h2 _ hm⟩

/-- `C135_error_partial` on the corners of a cube at first order with the default steps. -/
example : ∃ (pinv : {m n : ℕ} → Matrix (Fin m) (Fin n) ℝ → Matrix (Fin n) (Fin m) ℝ)
    (svd : {m n : ℕ} → Matrix (Fin m) (Fin n) ℝ → Matrix (Fin m) (Fin m) ℝ × Matrix (Fin n) (Fin n) ℝ) (s : Setup 8) (fig : PerfFigure),
    (decoderPerformance id pinv svd s "mad" 5 3 true (some 1)).1 = .ok fig ∧ ∀ v ∈ fig.vertices, v.2.error = some 0 := by
  choose P hP using fun (m n : ℕ) (A : Matrix (Fin m) (Fin n) ℝ) => exists_pinv A
  choose U V h using fun (m n : ℕ) (A : Matrix (Fin m) (Fin n) ℝ) => exists_svd A
  obtain ⟨azi, zen, hd⟩ := cube_design
  let h8 : Hull 8 := { points := fun l => dirVec (azi l) (zen l), listener := 0, d := 1, a := 1, simplices := [], centroids := [], faceAreas := [], faceNormals := [], barycenter := 0, encloses := [], valid := [], invBase := none, charOrder := none }
  have hu : ∀ l, ∑ c, h8.points l c ^ 2 = 1 := fun l => by
    have := dir_self (azi l) (zen l)
    rw [← this]; exact Finset.sum_congr rfl fun c _ => sq _
  obtain ⟨fig, hf, hv⟩ := C135_error_partial (N := 1) id (fun {m n} A => P m n A) (fun A => hP _ _ A) (fun {m n} A => (U m n A, V m n A)) (fun A => h _ _ A)
    ⟨h8, none, none⟩ hu (fun _ => rfl) (design_points hd) le_rfl (by norm_num) "mad" (.inr (.inl (by decide +kernel))) 5 3 (by norm_num) (by norm_num) (by norm_num)
    60 (by norm_num) true
  exact ⟨_, _, _, fig, hf, hv⟩

/-- `C135_design` and `C135_error_fails`: there are routines as required. -/
example : ∃ (pinv : {m n : ℕ} → Matrix (Fin m) (Fin n) ℝ → Matrix (Fin n) (Fin m) ℝ)
    (svd : {m n : ℕ} → Matrix (Fin m) (Fin n) ℝ → Matrix (Fin m) (Fin m) ℝ × Matrix (Fin n) (Fin n) ℝ) (s : Setup 8) (fig : PerfFigure),
    (decoderPerformance id pinv svd s "SAD" 5 7 true (some 1)).1 = .ok fig ∧ ∃ v ∈ fig.vertices, v.2.error = some 4 := by
  choose P hP using fun (m n : ℕ) (A : Matrix (Fin m) (Fin n) ℝ) => exists_pinv A
  choose U V h using fun (m n : ℕ) (A : Matrix (Fin m) (Fin n) ℝ) => exists_svd A
  obtain ⟨s, fig, h1, -, v, hv, -, h2⟩ := C135_error_fails (fun {m n} A => P m n A) (fun A => hP _ _ A) (fun {m n} A => (U m n A, V m n A)) (fun A => h _ _ A)
  exact ⟨_, _, s, fig, h1, v, hv, h2⟩

end Verif.Props
