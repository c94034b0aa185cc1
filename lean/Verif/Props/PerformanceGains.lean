import Verif.Props.PlotPerformance
import Verif.Props.Allrap2
import Verif.Proofs.PyList
import Mathlib.Tactic

/-!
C135: the figure of `plot.decoder_performance` shows, at every direction, the measures of the gains that the selected renderer gives for this direction alone.
-/

namespace Verif.Props
open Real Verif.Plot Verif.Utils Verif.Sph Verif.Decoder

theorem map_ok_iff {α β : Type} {x : Py α} {f : α → β} {y : β} (h : x.map f = .ok y) : ∃ a, x = .ok a ∧ f a = y := by
  rcases x with e | a
  · cases h
  · exact ⟨a, rfl, Except.ok.inj h⟩

/-- Every vertex shows the measures of its row of gains. -/
theorem performance_rows {L : ℕ} {lstsq : Mat3 → Mat3} {pinv : {m n : ℕ} → Matrix (Fin m) (Fin n) ℝ → Matrix (Fin n) (Fin m) ℝ}
    {svd : {m n : ℕ} → Matrix (Fin m) (Fin n) ℝ → Matrix (Fin m) (Fin m) ℝ × Matrix (Fin n) (Fin n) ℝ} {s : Setup L} {name : String} {sa se : ℝ}
    {showLs : Bool} {N : Option ℕ} {fig : PerfFigure} (h : (decoderPerformance lstsq pinv svd s name sa se showLs N).1 = .ok fig) {r : Renderer}
    (hr : rendererOf name = .ok r) : ∃ (dirs : List (ℝ × ℝ)) (rows : List (List ℝ)), (perfGains lstsq pinv svd r N s dirs).1 = .ok rows ∧
      ∀ v ∈ fig.vertices, ∃ (i : ℕ) (hi : i < dirs.length) (hi' : i < rows.length), v.1 = dirs[i] ∧ rows[i].length = L ∧
        v.2 = measures s.toHull (dirPoint v.1) fun l => rows[i].getD l 0 := by
  unfold decoderPerformance at h
  simp only [hr] at h
  set dirs := meshDirs (perfAzi (sa * (π / 180))) (perfZen (se * (π / 180)))
  rcases hg : (perfGains lstsq pinv svd r N s dirs).1 with e | rows
  · rw [hg] at h; cases h
  refine ⟨dirs, rows, hg, ?_⟩
  rw [hg] at h
  have hlen := perfGains_length lstsq pinv svd r N s _ rows hg
  change Except.map _ _ = _ at h
  obtain ⟨ms, hm, rfl⟩ := map_ok_iff h
  obtain ⟨hml, hme⟩ := mapM_entries _ _ _ hm
  intro v hv
  obtain ⟨i, hi, rfl⟩ := List.mem_iff_getElem.1 hv
  have hi' := hi
  simp only [List.length_zip, lt_min_iff] at hi'
  have hir : i < rows.length := by omega
  obtain ⟨m, h1, h2⟩ := hme i (dirs[i], rows[i]) (by rw [List.getElem?_eq_getElem (by simp; omega)]; simp)
  refine ⟨i, hi'.1, hir, by simp, ?_⟩
  unfold rowMeasures at h1
  simp only at h1
  by_cases hL : rows[i].length = L
  · rw [if_pos hL] at h1
    refine ⟨hL, ?_⟩
    rw [List.getElem?_eq_getElem hi'.2, Option.some.injEq] at h2
    simp only [List.getElem_zip, h2]
    exact (Except.ok.inj h1).symm
  · rw [if_neg hL] at h1; cases h1

theorem srcToSh_one (N : ℕ) (a z : ℝ) (q : Fin ((N + 1) ^ 2)) (j : Fin 1) :
    srcToSh (1 : Matrix (Fin 1) (Fin 1) ℝ) (fun _ => a) (fun _ => z) N q j = shVec N a z q := by
  unfold srcToSh
  rw [Matrix.mul_one]
  rfl

/-- The rows of VBAP. -/
theorem vbap_row {L : ℕ} {lstsq : Mat3 → Mat3} {src : List Vec3} {s : Setup L} {rows : List (List ℝ)}
    (h : (vbap lstsq 2 src none false s).1 = .ok rows) (i : ℕ) (hi : i < src.length) (hi' : i < rows.length) :
    (vbap lstsq 2 [src[i]] none false s).1 = .ok [rows[i]] := by
  unfold vbap vbapHull vbapSerial at h ⊢
  simp only [Bool.false_eq_true, if_false] at h ⊢
  obtain ⟨a, ha, rfl⟩ := map_ok_iff h
  obtain ⟨b, hb, rfl⟩ := map_ok_iff ha
  obtain ⟨hl, he⟩ := mapM_entries _ _ _ hb
  obtain ⟨y, h1, h2⟩ := he i src[i] (List.getElem?_eq_getElem hi)
  rw [List.mapM_cons, List.mapM_nil, h1]
  have hib : i < b.length := by omega
  rw [List.getElem?_eq_getElem hib, Option.some.injEq] at h2
  simp only [List.getElem_map, h2]
  rfl

/-- One column of what is decoded. -/
theorem applyDecoder_col {K S R N : ℕ} (D : Matrix (Fin R) (Fin ((N + 1) ^ 2)) ℝ) (F : Matrix (Fin K) (Fin S) ℝ) (i : Fin S) (F' : Matrix (Fin K) (Fin 1) ℝ)
    (hF : ∀ q, F' q 0 = F q i) (sig : Matrix (Fin R) (Fin S) ℝ) (h : applyDecoder D F = .ok sig) : applyDecoder D F' = .ok fun l _ => sig l i := by
  unfold applyDecoder at h ⊢
  by_cases hK : (N + 1) ^ 2 = K
  · rw [dif_pos hK] at h ⊢
    rw [← Except.ok.inj h]
    congr 1
    funext l j
    rw [Subsingleton.elim j 0]
    simp only [Matrix.mul_apply, Matrix.submatrix_apply, hF, id]
  · rw [dif_neg hK] at h; cases h

theorem applyTruncated_col {K S R N : ℕ} (D : Matrix (Fin R) (Fin ((N + 1) ^ 2)) ℝ) (F : Matrix (Fin K) (Fin S) ℝ) (i : Fin S) (F' : Matrix (Fin K) (Fin 1) ℝ)
    (hF : ∀ q, F' q 0 = F q i) (sig : Matrix (Fin R) (Fin S) ℝ) (h : applyTruncated D F = .ok sig) : applyTruncated D F' = .ok fun l _ => sig l i := by
  unfold applyTruncated at h ⊢
  split at h
  · cases h
  · rename_i h1
    rw [if_neg h1]
    split at h
    · rename_i h2
      rw [dif_pos h2, ← Except.ok.inj h]
      congr 1
      funext l j
      rw [Subsingleton.elim j 0]
      simp only [Matrix.mul_apply, Matrix.submatrix_apply, hF, id]
    · cases h

theorem allrad_col {L K S : ℕ} (lstsq : Mat3 → Mat3) (F : Matrix (Fin K) (Fin S) ℝ) (i : Fin S) (F' : Matrix (Fin K) (Fin 1) ℝ)
    (hF : ∀ q, F' q 0 = F q i) (N : Option ℕ) (s : Setup L) (out : List (Fin S → ℝ)) (h : (allrad lstsq F N s).1 = .ok out) :
    (allrad lstsq F' N s).1 = .ok (out.map fun x _ => x i) := by
  unfold allrad at h ⊢
  rcases hp : ambiPrologue s N with e | ⟨am, k, n⟩
  · rw [hp] at h; cases h
  rw [hp] at h
  simp only at h ⊢
  by_cases hn : (n : ℤ) ≠ shOrder K
  · rw [if_pos hn] at h; cases h
  rw [if_neg hn] at h ⊢
  rcases hg : (kernelGains lstsq am k).1 with e | Gk
  · rw [hg] at h; cases h
  rw [hg] at h
  simp only at h ⊢
  change (applyDecoder _ F).bind _ = _ at h
  change (applyDecoder _ F').bind _ = _
  rcases hs : applyDecoder (((4 * π / k.J) • (Gk.transpose * shAt n k.points)) * Matrix.diagonal (taper n)) F with e | sig
  · rw [hs] at h; cases h
  rw [hs] at h
  rw [applyDecoder_col _ F i F' hF sig hs]
  have h := Except.ok.inj h
  rw [← h]
  change Except.ok _ = _
  rw [List.map_map]
  rfl

theorem allrad2_col {L K S : ℕ} (lstsq : Mat3 → Mat3) (F : Matrix (Fin K) (Fin S) ℝ) (i : Fin S) (F' : Matrix (Fin K) (Fin 1) ℝ)
    (hF : ∀ q, F' q 0 = F q i) (N : Option ℕ) (s : Setup L) (out : List (Fin S → ℝ)) (h : (allrad2 lstsq F N s).1 = .ok out) :
    (allrad2 lstsq F' N s).1 = .ok (out.map fun x _ => x i) := by
  unfold allrad2 at h ⊢
  rcases hp : ambiPrologue s N with e | ⟨am, k, n⟩
  · rw [hp] at h; cases h
  rw [hp] at h
  simp only at h ⊢
  by_cases hn : (n : ℤ) ≠ shOrder K
  · rw [if_pos hn] at h; cases h
  rw [if_neg hn] at h ⊢
  rcases hg : (allrap2 lstsq k.points (some n) s).1 with e | Gk
  · rw [hg] at h; cases h
  rw [hg] at h
  simp only at h ⊢
  change (applyDecoder _ F).bind _ = _ at h
  change (applyDecoder _ F').bind _ = _
  generalize hD : ((4 * π / k.J) • (Matrix.transpose (fun (j : Fin k.J) (l : Fin (realIdx am).length) => (Gk j).getD l 0) * shAt n k.points)) = D at h ⊢
  rcases hs : applyDecoder D F with e | sig
  · rw [hs] at h; cases h
  rw [hs] at h
  rw [applyDecoder_col _ F i F' hF sig hs]
  have h := Except.ok.inj h
  rw [← h]
  change Except.ok _ = _
  rw [List.map_map]
  rfl

/-- **C135** Whatever the renderer, each vertex of the figure shows the measures of the gains which this renderer gives for the direction of the vertex alone: a panned
source there, or a source encoded with `src_to_sh` and decoded.  The order of the Ambisonic signals is `N_sph`, or that of the layout. -/
theorem C135_each {L : ℕ} (lstsq : Mat3 → Mat3) (pinv : {m n : ℕ} → Matrix (Fin m) (Fin n) ℝ → Matrix (Fin n) (Fin m) ℝ)
    (svd : {m n : ℕ} → Matrix (Fin m) (Fin n) ℝ → Matrix (Fin m) (Fin m) ℝ × Matrix (Fin n) (Fin n) ℝ) (s : Setup L) (name : String) (sa se : ℝ)
    (showLs : Bool) (N : Option ℕ) (fig : PerfFigure) (h : (decoderPerformance lstsq pinv svd s name sa se showLs N).1 = .ok fig) (r : Renderer)
    (hr : rendererOf name = .ok r) : ∀ v ∈ fig.vertices,
    let dir : Vec3 := ![cos v.1.1 * sin v.1.2, sin v.1.1 * sin v.1.2, cos v.1.2]
    let enc (n : ℕ) := srcToSh (1 : Matrix (Fin 1) (Fin 1) ℝ) (fun _ => v.1.1) (fun _ => v.1.2) n
    let order (n : ℕ) : Prop := (∀ k, N = some k → n = k) ∧ (N = none → getCharacteristicOrder lstsq s.toHull = .ok n)
    ∃ g : List ℝ, g.length = L ∧ v.2 = measures s.toHull dir (fun l => g.getD l 0) ∧
      match r with
      | .vbap => (vbap lstsq 2 [dir] none false s).1 = .ok [g]
      | .vbip => (vbip lstsq 2 [dir] none false s).1 = .ok [g]
      | .nls => (nearestLoudspeaker s.toHull dir).map List.ofFn = .ok g
      | .allrap => (allrap lstsq (fun _ : Fin 1 => dir) N s).1 = .ok fun _ => g
      | .allrap2 => (allrap2 lstsq (fun _ : Fin 1 => dir) N s).1 = .ok fun _ => g
      | .allrad => ∃ n, order n ∧ (allrad lstsq (enc n) (some n) s).1 = .ok (g.map fun x _ => x)
      | .allrad2 => ∃ n, order n ∧ (allrad2 lstsq (enc n) (some n) s).1 = .ok (g.map fun x _ => x)
      | .sad => ∃ n, order n ∧ sad lstsq (enc n) s.toHull (some n) = .ok fun l _ => g.getD l 0
      | .mad => ∃ n, order n ∧ mad lstsq pinv (enc n) s.toHull (some n) = .ok fun l _ => g.getD l 0
      | .epad => ∃ n, order n ∧ epad lstsq svd (enc n) s.toHull (some n) = .ok fun l _ => g.getD l 0 := by
  have hdir : ∀ d : ℝ × ℝ, dirPoint d = ![cos d.1 * sin d.2, sin d.1 * sin d.2, cos d.2] := by
    intro d; simp [dirPoint, sph2cart]
  obtain ⟨dirs, rows, hg, hv⟩ := performance_rows h hr
  intro v hvm dir enc order
  obtain ⟨i, hi, hi', h1, h2, h3⟩ := hv v hvm
  have hpt : dirPoint dirs[i] = dir := by rw [← h1, hdir]
  refine ⟨rows[i], h2, by rw [h3, hdir], ?_⟩
  have horder : ∀ n, perfOrder lstsq N s.toHull = .ok n → order n := by
    intro n hn
    unfold perfOrder at hn
    refine ⟨fun k hk => ?_, fun hk => ?_⟩
    · rw [hk] at hn; exact (Except.ok.inj hn).symm
    · rw [hk] at hn; exact hn
  have henc : ∀ n q, enc n q 0 = perfSh n dirs q ⟨i, hi⟩ := by
    intro n q
    show srcToSh _ _ _ _ _ _ = _
    rw [srcToSh_one, h1]
    rfl
  cases r <;> unfold perfGains at hg <;> simp only at hg ⊢
  case vbap =>
    by_cases hN : N.isSome
    · rw [if_pos hN] at hg; cases hg
    · rw [if_neg hN] at hg
      have := vbap_row hg i (by simpa using hi) hi'
      rwa [List.getElem_map, hpt] at this
  case vbip =>
    by_cases hN : N.isSome
    · rw [if_pos hN] at hg; cases hg
    · rw [if_neg hN] at hg
      unfold vbip at hg ⊢
      obtain ⟨a, ha, rfl⟩ := map_ok_iff hg
      have := vbap_row ha i (by simpa using hi) (by simpa using hi')
      rw [List.getElem_map, hpt] at this
      simp only [this, List.getElem_map]
      rfl
  case nls =>
    by_cases hN : N.isSome
    · rw [if_pos hN] at hg; cases hg
    · rw [if_neg hN] at hg
      obtain ⟨a, ha, rfl⟩ := map_ok_iff hg
      obtain ⟨hl, he⟩ := mapM_entries _ _ _ ha
      obtain ⟨y, hy1, hy2⟩ := he i dir (by rw [List.getElem?_map, List.getElem?_eq_getElem hi, Option.map_some, hpt])
      have hia : i < a.length := by simpa using hi'
      rw [List.getElem?_eq_getElem hia, Option.some.injEq] at hy2
      rw [hy1, List.getElem_map, hy2]
      rfl
  case allrap =>
    obtain ⟨a, ha, rfl⟩ := map_ok_iff hg
    unfold allrap at ha ⊢
    rcases hp : ambiPrologue s N with e | ⟨am, k, n⟩
    · rw [hp] at ha; cases ha
    rw [hp] at ha
    simp only at ha ⊢
    obtain ⟨Gk, hk, rfl⟩ := map_ok_iff ha
    rw [hk]
    simp only [List.getElem_ofFn]
    rw [← hpt]
    rfl
  case allrap2 =>
    obtain ⟨a, ha, rfl⟩ := map_ok_iff hg
    unfold allrap2 at ha ⊢
    rcases hp : ambiPrologue s N with e | ⟨am, k, n⟩
    · rw [hp] at ha; cases ha
    rw [hp] at ha
    simp only at ha ⊢
    obtain ⟨Gk, hk, rfl⟩ := map_ok_iff ha
    rw [hk]
    simp only [List.getElem_ofFn]
    rw [← hpt]
    rfl
  case allrad =>
    rcases ho : perfOrder lstsq N s.toHull with e | n
    · rw [ho] at hg; cases hg
    rw [ho] at hg
    obtain ⟨a, ha, rfl⟩ := map_ok_iff hg
    refine ⟨n, horder n ho, ?_⟩
    rw [allrad_col lstsq _ ⟨i, hi⟩ (enc n) (henc n) _ s a ha]
    simp only [List.getElem_ofFn, List.map_map]
    rfl
  case allrad2 =>
    rcases ho : perfOrder lstsq N s.toHull with e | n
    · rw [ho] at hg; cases hg
    rw [ho] at hg
    obtain ⟨a, ha, rfl⟩ := map_ok_iff hg
    refine ⟨n, horder n ho, ?_⟩
    rw [allrad2_col lstsq _ ⟨i, hi⟩ (enc n) (henc n) _ s a ha]
    simp only [List.getElem_ofFn, List.map_map]
    rfl
  case epad =>
    rcases ho : perfOrder lstsq N s.toHull with e | n
    · rw [ho] at hg; cases hg
    rw [ho] at hg
    obtain ⟨a, ha, rfl⟩ := map_ok_iff (x := epad lstsq svd (perfSh n dirs) s.toHull (some n)) hg
    refine ⟨n, horder n ho, ?_⟩
    rw [epad_eq lstsq svd _ s.toHull (some n) n rfl] at ha ⊢
    rw [applyTruncated_col _ _ ⟨i, hi⟩ (enc n) (henc n) a ha]
    simp
  case mad =>
    rcases ho : perfOrder lstsq N s.toHull with e | n
    · rw [ho] at hg; cases hg
    rw [ho] at hg
    obtain ⟨a, ha, rfl⟩ := map_ok_iff (x := mad lstsq pinv (perfSh n dirs) s.toHull (some n)) hg
    refine ⟨n, horder n ho, ?_⟩
    rw [mad_eq lstsq pinv _ s.toHull (some n) n rfl] at ha ⊢
    rw [applyTruncated_col _ _ ⟨i, hi⟩ (enc n) (henc n) a ha]
    simp
  case sad =>
    rcases ho : perfOrder lstsq N s.toHull with e | n
    · rw [ho] at hg; cases hg
    rw [ho] at hg
    obtain ⟨a, ha, rfl⟩ := map_ok_iff (x := sad lstsq (perfSh n dirs) s.toHull (some n)) hg
    refine ⟨n, horder n ho, ?_⟩
    rw [sad_eq lstsq _ s.toHull (some n) n rfl] at ha ⊢
    rw [applyTruncated_col _ _ ⟨i, hi⟩ (enc n) (henc n) a ha]
    simp

/-- A row of VBAP gains on loudspeakers at unit distance that is not silent has energy one and a positive gain. -/
theorem vbap_energy {L : ℕ} (lstsq : Mat3 → Mat3) (hl : LstsqSpec lstsq) (h : Hull L) (hc : CacheOk lstsq h) (hinj : ∀ f ∈ h.valid, Function.Injective f)
    (hd : ∀ l, h.d l = 1) (x : Vec3) (row : Fin L → ℝ) (hrow : (vbapHull lstsq 2 [x] none h).1 = .ok [row]) (hne : row ≠ 0) :
    ∑ l, row l ^ 2 = 1 ∧ ∃ l, 0 < row l := by
  obtain ⟨rows, h1, -, h3⟩ := C29_vbap lstsq hl (p := 2) (by norm_num) h hc hinj [x]
  rw [hrow] at h1
  have h1 := Except.ok.inj h1
  obtain ⟨g, hg, hcase⟩ := h3 0 x row rfl (by rw [← h1]; rfl)
  have hgr : row = g := by
    rw [hg]; funext l; rw [hd l, one_rpow, one_mul]
  subst hgr
  rcases hcase with rfl | ⟨f, hf, hR⟩
  · exact absurd rfl hne
  have hE := npNorm_two_one hR.norm
  refine ⟨hE, ?_⟩
  by_contra hcon
  push Not at hcon
  have hsq : ∀ l, row l ^ 2 ≤ if l ∈ Finset.univ.image f then 10e-6 ^ 2 else 0 := by
    intro l
    by_cases hz : row l = 0
    · rw [hz]; split <;> norm_num
    · obtain ⟨i, hi⟩ := hR.support l hz
      rw [if_pos (Finset.mem_image.2 ⟨i, Finset.mem_univ _, hi⟩)]
      have := hR.positive l
      nlinarith [hcon l]
  have : ∑ l, row l ^ 2 ≤ ∑ l : Fin L, if l ∈ Finset.univ.image f then (10e-6 : ℝ) ^ 2 else 0 := Finset.sum_le_sum fun l _ => hsq l
  rw [Finset.sum_ite_mem, Finset.univ_inter, Finset.sum_const, nsmul_eq_mul, hE] at this
  have hcard : ((Finset.univ.image f).card : ℝ) ≤ 3 := by
    have := Finset.card_image_le (s := (Finset.univ : Finset (Fin 3))) (f := f)
    simp at this
    exact_mod_cast this
  nlinarith

/-- **C135** On loudspeakers at unit distance whose valid triplets (each linearly independent) cover all directions, the figures of VBAP and VBIP exist for all
steps and show energy one in every direction. -/
theorem C135_vbap {L : ℕ} (lstsq : Mat3 → Mat3) (hl : LstsqSpec lstsq) (pinv : {m n : ℕ} → Matrix (Fin m) (Fin n) ℝ → Matrix (Fin n) (Fin m) ℝ)
    (svd : {m n : ℕ} → Matrix (Fin m) (Fin n) ℝ → Matrix (Fin m) (Fin m) ℝ × Matrix (Fin n) (Fin n) ℝ) (s : Setup L) (hc : CacheOk lstsq s.toHull)
    (hinj : ∀ f ∈ s.valid, Function.Injective f) (hli : ∀ f ∈ s.valid, LinearIndependent ℝ fun i => s.points (f i))
    (hu : ∀ l, norm3 (s.points l) = 1) (hd : ∀ l, s.d l = 1)
    (hcover : ∀ x : Vec3, ∃ f ∈ s.valid, ∃ c : Vec3, (∀ i, 0 ≤ c i) ∧ ∑ i, c i • s.points (f i) = x)
    (name : String) (hname : name.toLower = "vbap" ∨ name.toLower = "vbip") (sa se : ℝ) (showLs : Bool) :
    ∃ fig, (decoderPerformance lstsq pinv svd s name sa se showLs none).1 = .ok fig ∧ (∀ v ∈ fig.vertices, v.2.energy = 1) ∧ fig.maxEnergy = 1 := by
  set dirs := meshDirs (perfAzi (sa * (π / 180))) (perfZen (se * (π / 180))) with hdirs
  obtain ⟨rows, hr1, hr2, hr3⟩ := vbapHull_each lstsq s.toHull hc hinj (dirs.map dirPoint)
  rw [List.length_map] at hr2
  have hE : ∀ i : Fin dirs.length, ∑ l, (rows.getD i 0) l ^ 2 = 1 ∧ ∃ l, 0 < (rows.getD i 0) l := by
    intro i
    have hi : (i : ℕ) < rows.length := by rw [hr2]; exact i.2
    have hg : rows.getD i 0 = rows[(i : ℕ)] := by rw [List.getD_eq_getElem?_getD, List.getElem?_eq_getElem hi, Option.getD_some]
    have hone := hr3 i (dirPoint dirs[(i : ℕ)]) rows[(i : ℕ)] (by simp) (List.getElem?_eq_getElem hi)
    have hdir : dirPoint dirs[(i : ℕ)] = dirVec dirs[(i : ℕ)].1 dirs[(i : ℕ)].2 := by
      funext c; fin_cases c <;> simp [dirPoint, sph2cart, dirVec]
    obtain ⟨f, hf, c, hc1, hc2⟩ := hcover (dirPoint dirs[(i : ℕ)])
    obtain ⟨row, h1, h2⟩ := C30_cone lstsq hl (p := 2) (by norm_num) s.toHull hc hinj hli (fun l => by rw [hd, hu]) (dirPoint dirs[(i : ℕ)]) (fun h0 => by
      have := norm3_dirVec dirs[(i : ℕ)].1 dirs[(i : ℕ)].2
      rw [← hdir, h0] at this
      simp [norm3] at this) f hf c hc1 hc2
    have hrow : rows[(i : ℕ)] = row := by
      rw [hone] at h1
      exact List.head_eq_of_cons_eq (Except.ok.inj h1)
    rw [hg, hrow]
    exact vbap_energy lstsq hl s.toHull hc hinj hd _ row h1 h2
  have hv : (vbap lstsq 2 (dirs.map dirPoint) none false s).1 = .ok (List.ofFn fun i : Fin dirs.length => List.ofFn (rows.getD i 0)) := by
    unfold vbap
    rw [if_neg (by simp)]
    simp only [hr1]
    show Except.ok _ = _
    congr 1
    refine List.ext_getElem (by simp [hr2]) fun k h1 h2 => ?_
    have hk : k < rows.length := by simpa using h1
    simp [List.getElem?_eq_getElem hk]
  have key : ∃ (r : Renderer) (g : Fin dirs.length → Fin L → ℝ), rendererOf name = .ok r ∧
      (perfGains lstsq pinv svd r none s dirs).1 = .ok (List.ofFn fun i => List.ofFn (g i)) ∧ ∀ i, ∑ l, g i l ^ 2 = 1 := by
    rcases hname with hn | hn
    · refine ⟨.vbap, fun i => rows.getD i 0, ?_, hv, fun i => (hE i).1⟩
      unfold rendererOf; rw [hn]; rfl
    · refine ⟨.vbip, fun i l => (vbipRow 2 (List.ofFn (rows.getD i 0))).getD l 0, ?_, ?_, fun i => ?_⟩
      · unfold rendererOf; rw [hn]; rfl
      · show (vbip lstsq 2 (dirs.map dirPoint) none false s).1 = _
        unfold vbip
        simp only [hv]
        show Except.ok _ = _
        congr 1
        dsimp only
        rw [List.map_ofFn]
        congr 1
        funext i
        refine List.ext_getElem (by simp [(C34_row (p := 2) (by norm_num) _).1]) fun k h1 h2 => ?_
        simp only [Function.comp_apply] at h1 ⊢
        rw [List.getElem_ofFn, List.getD_eq_getElem _ _ h1]
      · obtain ⟨hlen, -, hn, hpos, -⟩ := C34_row (p := 2) (by norm_num) (List.ofFn (rows.getD i 0))
        rw [List.length_ofFn] at hlen
        obtain ⟨l, hl0⟩ := (hE i).2
        rcases hn with hn | hn
        · have := npNorm_two_one hn
          rw [← this]
          refine Fintype.sum_equiv (finCongr hlen.symm) _ _ fun k => ?_
          have hk : (k : ℕ) < (vbipRow 2 (List.ofFn (rows.getD i 0))).length := by rw [hlen]; exact k.2
          show ((vbipRow 2 (List.ofFn (rows.getD i 0))).getD k 0) ^ 2 = (vbipRow 2 (List.ofFn (rows.getD i 0)))[(k : ℕ)] ^ 2
          rw [List.getD_eq_getElem _ _ hk]
        · have h1 : (l : ℕ) < (vbipRow 2 (List.ofFn (rows.getD i 0))).length := by rw [hlen]; exact l.2
          have := (hpos l h1 (by simp)).2 (by rw [List.getElem_ofFn]; exact hl0)
          exact absurd (hn _ (List.getElem_mem h1)) this
  obtain ⟨r, g, hr, hg, hsum⟩ := key
  obtain ⟨fig, hf, hvx⟩ := performance_of_gains lstsq pinv svd s name r hr sa se showLs none dirs rfl g hg
  have hone : ∀ v ∈ fig.vertices, v.2.energy = 1 := by
    intro v hv'
    obtain ⟨i, rfl⟩ := hvx v hv'
    exact hsum i
  refine ⟨fig, hf, hone, ?_⟩
  obtain ⟨-, -, -, -, h5, -⟩ := C135_scale lstsq pinv svd s name sa se showLs none fig hf
  rcases h5 with h | ⟨v, hv', h⟩
  · exact h
  · rw [← h]; exact hone v hv'

/-- `C135_vbap` and `C135_each` on an octahedron: the VBIP figure in steps of 5 and 3 degrees shows energy one and the gains of each direction. -/
example : ∃ lstsq fig, (decoderPerformance lstsq (fun _ => 0) (fun _ => (0, 0)) ⟨Oct.hull, none, none⟩ "vbip" 5 3 true none).1 = .ok fig ∧ fig.maxEnergy = 1 ∧
    ∃ v ∈ fig.vertices, v.2.energy = 1 ∧ ∃ g : List ℝ, g.length = 6 ∧
      (vbip lstsq 2 [![cos v.1.1 * sin v.1.2, sin v.1.1 * sin v.1.2, cos v.1.2]] none false ⟨Oct.hull, none, none⟩).1 = .ok [g] := by
  obtain ⟨lstsq, hl⟩ := exists_lstsq3
  obtain ⟨fig, h1, h2, h3⟩ := C135_vbap lstsq hl (fun _ => 0) (fun _ => (0, 0)) ⟨Oct.hull, none, none⟩ (oct_cache lstsq) Oct.inj Oct.li Oct.norm_pts (fun _ => rfl)
    oct_cone "vbip" (.inr (by decide +kernel)) 5 3 true
  have hp := pi_pos
  obtain ⟨m, hm⟩ := ((C135_lattice lstsq _ _ ⟨Oct.hull, none, none⟩ "vbip" 5 3 (by norm_num) (by norm_num) true none fig h1).1 (-π) 0).2
    ⟨0, 0, by simp, by simp, by linarith, by linarith⟩
  obtain ⟨g, h4, -, h5⟩ := C135_each lstsq _ _ ⟨Oct.hull, none, none⟩ "vbip" 5 3 true none fig h1 .vbip (by decide +kernel) _ hm
  exact ⟨lstsq, fig, h1, h3, _, hm, h2 _ hm, g, h4, h5⟩

end Verif.Props
