import Verif.Model.IoDefault
import Verif.Props.DummyHrirs
import Verif.Props.MagLs
import Verif.Props.ProcessSignals
import Verif.Props.ShComplex

/-!
C94, C95: the default HRIRs and resampled spectra.
-/

namespace Verif.Props
open Real Verif.Sph Verif.Grids Verif.Io Verif.Sig Verif.Decoder Verif.Process

/-- Value at the direction `(a, z)` and frequency `k` of the function with the given coefficients. -/
noncomputable def shAt {N B : ℕ} (sh : Matrix (Fin ((N + 1) ^ 2)) (Fin B) ℂ) (a z : ℝ) (k : ℕ) : ℂ :=
  if h : k < B then ∑ q : Fin ((N + 1) ^ 2), sphHarm (acnDegree q) (acnOrder q) a z * sh q ⟨k, h⟩ else 0

theorem irfft_row_spectrum (h : ℕ) (hh : 0 < h) (X : ℕ → ℂ) :
    HasSpectrum h (fun t => ((List.range (2 * h)).map fun t : ℕ => irfftAt (h + 1) X t).getD t 0) X := by
  intro k hk
  rw [← dft_irfft h hh X k hk]
  unfold Parsa.dft
  refine Finset.sum_congr rfl fun m hm => ?_
  have hm := Finset.mem_range.1 hm
  simp [List.getD_eq_getElem?_getD, hm]

/-- The rows of the set before resampling. -/
noncomputable def baseRow {N h : ℕ} (sh : Matrix (Fin ((N + 1) ^ 2)) (Fin (h + 1)) ℂ) (d : ℝ × ℝ) : List ℝ :=
  (List.range (2 * h)).map fun t : ℕ => irfftAt (h + 1) (shAt sh d.1 d.2) t

theorem ear_rows {N h : ℕ} (hh : 0 < h) (sh : Matrix (Fin ((N + 1) ^ 2)) (Fin (h + 1)) ℂ) (dirs : List (ℝ × ℝ)) :
    ∃ H, earHrtf sh dirs = .ok H ∧ irfftRows H = .ok (dirs.map (baseRow sh)) := by
  unfold earHrtf
  rw [inverseShtC_eq _ _ _ none (.inl rfl)]
  refine ⟨_, rfl, ?_⟩
  unfold irfftRows
  rw [if_neg (by omega)]
  congr 1
  apply List.ext_getElem
  · simp
  · intro i h1 h2
    simp only [List.getElem_ofFn, List.getElem_map, baseRow, Nat.add_sub_cancel]
    congr 1

theorem getDefault_ok (lg : ℕ → List ℝ × List ℝ) (rs : Resampler) (rate : ℝ) {N M h G : ℕ} (hh : 0 < h) (shL : Matrix (Fin ((N + 1) ^ 2)) (Fin (h + 1)) ℂ)
    (shR : Matrix (Fin ((M + 1) ^ 2)) (Fin (h + 1)) ℂ) (oa oz : Option (List ℝ)) (azi zen : List ℝ) (hgrid : defaultGrid lg oa oz = .ok (azi, zen))
    (la : azi.length = G) (lz : zen.length = G) (hG : 1 < G) (jobs : Option ℤ) (cpus : ℕ) (hj : 1 ≤ jobs.getD cpus) (o48 o96 : List ℕ × List ℕ)
    (h48 : o48.1.Perm (List.range G) ∧ o48.2.Perm (List.range G)) (h96 : o96.1.Perm (List.range G) ∧ o96.2.Perm (List.range G)) :
    getDefaultHrirs lg rs ⟨rate, _, _, shL, _, _, shR⟩ oa oz jobs cpus o48 o96 = .ok
      (hrirFile ((azi.zip zen).map (baseRow shL)) ((azi.zip zen).map (baseRow shR)) azi zen 44100,
       hrirFile (((azi.zip zen).map (baseRow shL)).map (rs.run (pyInt rate) 48000)) (((azi.zip zen).map (baseRow shR)).map (rs.run (pyInt rate) 48000)) azi zen 48000,
       hrirFile (((azi.zip zen).map (baseRow shL)).map (rs.run (pyInt rate) 96000)) (((azi.zip zen).map (baseRow shR)).map (rs.run (pyInt rate) 96000)) azi zen 96000) := by
  obtain ⟨HL, hL, hL'⟩ := ear_rows hh shL (azi.zip zen)
  obtain ⟨HR, hR, hR'⟩ := ear_rows hh shR (azi.zip zen)
  have hp : Sph.pairDirs azi zen = .ok (azi.zip zen) := by
    unfold Sph.pairDirs
    split
    · simp at lz; omega
    · rw [if_pos (by rw [la, lz])]
  have key : ∀ (fs : ℝ) (o : List ℕ × List ℕ), o.1.Perm (List.range G) → o.2.Perm (List.range G) →
      resampledFile rs ((azi.zip zen).map (baseRow shL)) ((azi.zip zen).map (baseRow shR)) azi zen (pyInt rate) fs jobs cpus o
        = hrirFile (((azi.zip zen).map (baseRow shL)).map (rs.run (pyInt rate) fs)) (((azi.zip zen).map (baseRow shR)).map (rs.run (pyInt rate) fs)) azi zen fs := by
    intro fs o h1 h2
    unfold resampledFile
    rw [C61_jobs rs _ _ _ _ _ jobs cpus o.1 o.2 hj (by simpa [la, lz] using h1) (by simpa [la, lz] using h2)]
    simp only [List.map_map]
    rfl
  unfold getDefaultHrirs
  rw [hgrid]
  simp only [Except.bind]
  rw [hp]
  simp only
  rw [hL]
  simp only
  rw [hR]
  simp only
  rw [if_neg (by simp), hL', hR']
  simp only
  rw [key 48000 o48 h48.1 h48.2, key 96000 o96 h96.1 h96.2]

theorem base_len {N h : ℕ} (sh : Matrix (Fin ((N + 1) ^ 2)) (Fin (h + 1)) ℂ) (d : ℝ × ℝ) : (baseRow sh d).length = 2 * h := by simp [baseRow]

/-- Loading a written file returns what was written. -/
theorem load_written (lg : ℕ → List ℝ × List ℝ) (found generated : ℝ → Py MatFile) (fs : ℝ) (hfs : fs = 44100 ∨ fs = 48000 ∨ fs = 96000)
    (l r : List (List ℝ)) (azi zen : List ℝ) (G T : ℕ) (hG : 1 < G) (hT : 1 < T) (la : azi.length = G) (lz : zen.length = G) (ll : l.length = G)
    (lr : r.length = G) (wl : ∀ x ∈ l, x.length = T) (wr : ∀ x ∈ r, x.length = T)
    (hm : found fs = .ok (hrirFile l r azi zen fs) ∨ found fs = .error .osError ∧ generated fs = .ok (hrirFile l r azi zen fs)) :
    ∃ H, loadHrirs lg found generated fs .default = .ok H ∧ H.fs = fs ∧ H.azi = azi ∧ H.zen = zen ∧ H.left = ⟨T, l⟩ ∧ H.right = ⟨T, r⟩ := by
  have hd : ∀ x : List (List ℝ), x.length = G → (∀ y ∈ x, y.length = T) → (x.headD []).length = T := by
    intro x hx hy
    match x with
    | [] => simp at hx; omega
    | y :: ys => exact hy y (by simp)
  obtain ⟨H, h1, h2, h3, h4, h5, h6⟩ := C78_default lg found generated fs hfs (hrirFile l r azi zen fs) hm _ _ _ _ rfl rfl rfl rfl G T hG hT
    (by show [l.length, (l.headD []).length] = _; rw [ll, hd l ll wl]) (by show [r.length, (r.headD []).length] = _; rw [lr, hd r lr wr])
    (.inl (by show [1, azi.length] = _; rw [la])) (.inl (by show [1, zen.length] = _; rw [lz])) la lz (.inl rfl)
  refine ⟨H, h1, h2, h3, h4, ?_, ?_⟩
  · rw [h5, ← ll]; exact ofND_flatten T l wl
  · rw [h6, ← lr]; exact ofND_flatten T r wr

/-- C94: after `get_default_hrirs`, which `load_hrirs` calls itself if no file is there, loading a default set yields the directions of
the grid in order and, per ear and direction, the impulse response of the SH expansion evaluated there: as it is for 44100 Hz,
resampled from the rate of the source for the others.  Holds for every number of jobs and order of completion. -/
theorem C94_load (lg : ℕ → List ℝ × List ℝ) (rs : Resampler) (rate : ℝ) {N M h G : ℕ} (hh : 0 < h) (shL : Matrix (Fin ((N + 1) ^ 2)) (Fin (h + 1)) ℂ)
    (shR : Matrix (Fin ((M + 1) ^ 2)) (Fin (h + 1)) ℂ) (oa oz : Option (List ℝ)) (azi zen : List ℝ)
    (hgrid : oa = some azi ∧ oz = some zen ∨ oa = none ∧ oz = none ∧ azi = (gauss lg 35).1 ∧ zen = (gauss lg 35).2.1)
    (la : azi.length = G) (lz : zen.length = G) (hG : 1 < G) (jobs : Option ℤ) (cpus : ℕ) (hj : 1 ≤ jobs.getD cpus) (o48 o96 : List ℕ × List ℕ)
    (h48 : o48.1.Perm (List.range G) ∧ o48.2.Perm (List.range G)) (h96 : o96.1.Perm (List.range G) ∧ o96.2.Perm (List.range G))
    (files : Py (MatFile × MatFile × MatFile)) (hf : files = getDefaultHrirs lg rs ⟨rate, _, _, shL, _, _, shR⟩ oa oz jobs cpus o48 o96) :
    ∃ L R : ℕ → List ℝ,
      (∀ g < G, (L g).length = 2 * h ∧ (R g).length = 2 * h ∧
        HasSpectrum h (fun t => (L g).getD t 0) (fun k => if hk : k < h + 1 then
          ∑ q : Fin ((N + 1) ^ 2), sphHarm (acnDegree q) (acnOrder q) (azi.getD g 0) (zen.getD g 0) * shL q ⟨k, hk⟩ else 0) ∧
        HasSpectrum h (fun t => (R g).getD t 0) (fun k => if hk : k < h + 1 then
          ∑ q : Fin ((M + 1) ^ 2), sphHarm (acnDegree q) (acnOrder q) (azi.getD g 0) (zen.getD g 0) * shR q ⟨k, hk⟩ else 0)) ∧
      ∀ (fs : ℝ) (found generated : ℝ → Py MatFile), (fs = 44100 ∨ fs = 48000 ∨ fs = 96000) → (fs ≠ 44100 → 1 < rs.len (pyInt rate) fs (2 * h)) →
        (found fs = fileFor files fs ∨ found fs = .error .osError ∧ generated fs = fileFor files fs) →
        ∃ H, loadHrirs lg found generated fs .default = .ok H ∧ H.fs = fs ∧ H.azi = azi ∧ H.zen = zen ∧
          H.left.rows.length = G ∧ H.right.rows.length = G ∧ ∀ g < G,
          H.left.rows.getD g [] = (if fs = 44100 then L g else rs.run (pyInt rate) fs (L g)) ∧
          H.right.rows.getD g [] = (if fs = 44100 then R g else rs.run (pyInt rate) fs (R g)) := by
  have hg : defaultGrid lg oa oz = .ok (azi, zen) := by
    rcases hgrid with ⟨rfl, rfl⟩ | ⟨rfl, rfl, rfl, rfl⟩ <;> rfl
  have hok := getDefault_ok lg rs rate hh shL shR oa oz azi zen hg la lz hG jobs cpus hj o48 o96 h48 h96
  rw [← hf] at hok
  have lzip : (azi.zip zen).length = G := by simp [la, lz]
  have hget : ∀ g < G, (azi.zip zen)[g]? = some (azi.getD g 0, zen.getD g 0) := by
    intro g hg
    rw [List.getElem?_eq_getElem (by omega), List.getElem_zip]
    simp [List.getD_eq_getElem?_getD, la, lz, hg]
  have hrow : ∀ {N : ℕ} (sh : Matrix (Fin ((N + 1) ^ 2)) (Fin (h + 1)) ℂ), ∀ g < G,
      ((azi.zip zen).map (baseRow sh)).getD g [] = baseRow sh (azi.getD g 0, zen.getD g 0) := by
    intro N sh g hg
    rw [List.getD_eq_getElem?_getD, List.getElem?_map, hget g hg]; rfl
  have hrow' : ∀ {N : ℕ} (sh : Matrix (Fin ((N + 1) ^ 2)) (Fin (h + 1)) ℂ) (f : List ℝ → List ℝ), ∀ g < G,
      (((azi.zip zen).map (baseRow sh)).map f).getD g [] = f (baseRow sh (azi.getD g 0, zen.getD g 0)) := by
    intro N sh f g hg
    rw [List.getD_eq_getElem?_getD, List.getElem?_map, List.getElem?_map, hget g hg]; rfl
  refine ⟨fun g => baseRow shL (azi.getD g 0, zen.getD g 0), fun g => baseRow shR (azi.getD g 0, zen.getD g 0), ?_, ?_⟩
  · intro g hg
    exact ⟨base_len _ _, base_len _ _, irfft_row_spectrum h hh _, irfft_row_spectrum h hh _⟩
  · intro fs found generated hfs hlen hfile
    by_cases h44 : fs = 44100
    · have hff : fileFor files fs = .ok (hrirFile ((azi.zip zen).map (baseRow shL)) ((azi.zip zen).map (baseRow shR)) azi zen fs) := by
        rw [hok, h44]; simp [fileFor, Except.bind]
      rw [hff] at hfile
      obtain ⟨H, h1, h2, h3, h4, h5, h6⟩ := load_written lg found generated fs hfs _ _ azi zen G (2 * h) hG (by omega) la lz (by simp [la, lz])
        (by simp [la, lz]) (by intro x hx; obtain ⟨d, -, rfl⟩ := List.mem_map.1 hx; exact base_len _ _)
        (by intro x hx; obtain ⟨d, -, rfl⟩ := List.mem_map.1 hx; exact base_len _ _) hfile
      refine ⟨H, h1, h2, h3, h4, by rw [h5]; simp [la, lz], by rw [h6]; simp [la, lz], fun g hg => ?_⟩
      rw [h5, h6, if_pos h44, if_pos h44]
      exact ⟨hrow shL g hg, hrow shR g hg⟩
    · have hff : fileFor files fs = .ok (hrirFile (((azi.zip zen).map (baseRow shL)).map (rs.run (pyInt rate) fs))
          (((azi.zip zen).map (baseRow shR)).map (rs.run (pyInt rate) fs)) azi zen fs) := by
        rw [hok]
        rcases hfs with h | rfl | rfl
        · exact absurd h h44
        · simp [fileFor, Except.bind]
        · norm_num [fileFor, Except.bind]
      rw [hff] at hfile
      obtain ⟨H, h1, h2, h3, h4, h5, h6⟩ := load_written lg found generated fs hfs _ _ azi zen G (rs.len (pyInt rate) fs (2 * h)) hG (hlen h44) la lz
        (by simp [la, lz]) (by simp [la, lz])
        (by intro x hx; obtain ⟨y, hy, rfl⟩ := List.mem_map.1 hx; obtain ⟨d, -, rfl⟩ := List.mem_map.1 hy; rw [rs.run_length, base_len])
        (by intro x hx; obtain ⟨y, hy, rfl⟩ := List.mem_map.1 hx; obtain ⟨d, -, rfl⟩ := List.mem_map.1 hy; rw [rs.run_length, base_len]) hfile
      refine ⟨H, h1, h2, h3, h4, by rw [h5]; simp [la, lz], by rw [h6]; simp [la, lz], fun g hg => ?_⟩
      rw [h5, h6, if_neg h44, if_neg h44]
      exact ⟨hrow' shL _ g hg, hrow' shR _ g hg⟩

/-- The identity as a resampler, for the examples. -/
def copyResampler : Resampler := ⟨fun _ _ n => n, fun _ _ x => x, fun _ _ _ => rfl⟩

example (lg : ℕ → List ℝ × List ℝ) (shL shR : Matrix (Fin ((2 + 1) ^ 2)) (Fin (128 + 1)) ℂ) :
    ∃ H, loadHrirs lg (fileFor (getDefaultHrirs lg copyResampler ⟨44100, _, _, shL, _, _, shR⟩ (some [0, 1]) (some [1, 2]) (some 3) 8 ([1, 0], [0, 1]) ([0, 1], [1, 0])))
      (fun _ => .error .osError) 48000 .default = .ok H ∧ H.fs = 48000 ∧ H.azi = [0, 1] ∧ H.left.rows.length = 2 := by
  have p1 : ([1, 0] : List ℕ).Perm (List.range 2) := by decide
  have p2 : ([0, 1] : List ℕ).Perm (List.range 2) := by decide
  obtain ⟨L, R, -, h⟩ := C94_load lg copyResampler 44100 (by norm_num : 0 < 128) shL shR (some [0, 1]) (some [1, 2]) [0, 1] [1, 2] (.inl ⟨rfl, rfl⟩) (G := 2)
    rfl rfl (by norm_num) (some 3) 8 (by simp) ([1, 0], [0, 1]) ([0, 1], [1, 0]) ⟨p1, p2⟩ ⟨p2, p1⟩ _ rfl
  obtain ⟨H, h1, h2, h3, -, h4, -⟩ := h 48000 _ (fun _ => .error .osError) (.inr (.inl rfl)) (fun _ => by norm_num [copyResampler]) (.inl rfl)
  exact ⟨H, h1, h2, h3, h4⟩

theorem coeff_key (lg : ℕ → List ℝ × List ℝ) (N : ℕ) (hlg : IsGaussLegendre (N + 1) (lg (N + 1))) {h G : ℕ} (azi zen w : Fin G → ℝ)
    (hg : gauss lg N = (List.ofFn azi, List.ofFn zen, List.ofFn w)) (k : ℕ) (hk0 : 0 < k) (hk : k < h)
    (sh : Matrix (Fin ((N + 1) ^ 2)) (Fin (h + 1)) ℂ) (X : ℕ → ℕ → ℝ)
    (hX : ∀ g < G, HasSpectrum h (X g) (fun k => if hk : k < h + 1 then
          ∑ q : Fin ((N + 1) ^ 2), sphHarm (acnDegree q) (acnOrder q) ((gauss lg N).1.getD g 0) ((gauss lg N).2.1.getD g 0) * sh q ⟨k, hk⟩ else 0)) :
    shtC (shMatC N azi zen) (some w) (Matrix.of fun (g : Fin G) (_ : Fin 1) => ∑ t ∈ Finset.range (2 * h),
          ((X g t : ℝ) : ℂ) * Complex.exp (-(2 * π * Complex.I * (k * t) / (2 * h : ℕ))))
          = Matrix.of fun q _ => sh q ⟨k, by omega⟩ := by
  have hrt := C93_gauss lg N 1 hlg (Matrix.of fun q _ => sh q ⟨k, by omega⟩) azi zen w hg none (.inl rfl)
  rw [inverseShtC_eq _ _ _ none (.inl rfl)] at hrt
  have hrt := Except.ok.inj hrt
  have e : (Matrix.of fun (g : Fin G) (_ : Fin 1) => ∑ t ∈ Finset.range (2 * h),
        ((X g t : ℝ) : ℂ) * Complex.exp (-(2 * π * Complex.I * (k * t) / (2 * h : ℕ))))
      = shMatC N azi zen * Matrix.of (fun q (_ : Fin 1) => sh q ⟨k, by omega⟩) := by
    ext g s
    have := hX g.val g.2 k (by omega)
    simp only at this
    rw [if_neg (by omega), dif_pos (by omega), hg, getD_ofFn' _ _ g.2, getD_ofFn' _ _ g.2] at this
    exact this
  rw [e, hrt]

/-- C94: from the default set of a source of order 35 the transform on the grid, at every frequency between 0 and the last, returns the
coefficients of the source. -/
theorem C94_coefficients (lg : ℕ → List ℝ × List ℝ) (hlg : IsGaussLegendre 36 (lg 36)) (rs : Resampler) (rate : ℝ) {h G : ℕ} (hh : 0 < h)
    (shL shR : Matrix (Fin ((35 + 1) ^ 2)) (Fin (h + 1)) ℂ) (jobs : Option ℤ) (cpus : ℕ) (hj : 1 ≤ jobs.getD cpus) (o48 o96 : List ℕ × List ℕ)
    (h48 : o48.1.Perm (List.range G) ∧ o48.2.Perm (List.range G)) (h96 : o96.1.Perm (List.range G) ∧ o96.2.Perm (List.range G))
    (azi zen w : Fin G → ℝ) (hg : gauss lg 35 = (List.ofFn azi, List.ofFn zen, List.ofFn w)) :
    ∃ H, loadHrirs lg (fun _ => .error .osError) (fileFor (getDefaultHrirs lg rs ⟨rate, _, _, shL, _, _, shR⟩ none none jobs cpus o48 o96)) 44100 .default = .ok H ∧
      ∀ (k : ℕ) (_ : 0 < k) (hk : k < h),
        shtC (shMatC 35 azi zen) (some w) (Matrix.of fun (g : Fin G) (_ : Fin 1) => ∑ t ∈ Finset.range (2 * h),
          (((H.left.rows.getD g []).getD t 0 : ℝ) : ℂ) * Complex.exp (-(2 * π * Complex.I * (k * t) / (2 * h : ℕ))))
          = Matrix.of (fun q _ => shL q ⟨k, by omega⟩) ∧
        shtC (shMatC 35 azi zen) (some w) (Matrix.of fun (g : Fin G) (_ : Fin 1) => ∑ t ∈ Finset.range (2 * h),
          (((H.right.rows.getD g []).getD t 0 : ℝ) : ℂ) * Complex.exp (-(2 * π * Complex.I * (k * t) / (2 * h : ℕ))))
          = Matrix.of fun q _ => shR q ⟨k, by omega⟩ := by
  have la : (gauss lg 35).1.length = G := by rw [hg]; simp
  have hG : 1 < G := by have := (C27_gauss lg 35 hlg).1; omega
  have lz : (gauss lg 35).2.1.length = G := by rw [hg]; simp
  obtain ⟨L, R, hLR, hload⟩ := C94_load lg rs rate hh shL shR none none _ _ (.inr ⟨rfl, rfl, rfl, rfl⟩) la lz hG jobs cpus hj o48 o96 h48 h96 _ rfl
  obtain ⟨H, h1, -, -, -, -, -, h2⟩ := hload 44100 (fun _ => .error .osError) _ (.inl rfl) (fun h => absurd rfl h) (.inr ⟨rfl, rfl⟩)
  refine ⟨H, h1, fun k hk0 hk => ?_⟩
  have e1 : ∀ g : Fin G, H.left.rows.getD g.val [] = L g.val := fun g => by have := (h2 g.val g.2).1; rwa [if_pos rfl] at this
  have e2 : ∀ g : Fin G, H.right.rows.getD g.val [] = R g.val := fun g => by have := (h2 g.val g.2).2; rwa [if_pos rfl] at this
  constructor
  · simp only [e1]
    exact coeff_key lg 35 hlg azi zen w hg k hk0 hk shL (fun g t => (L g).getD t 0) fun g hg => (hLR g hg).2.2.1
  · simp only [e2]
    exact coeff_key lg 35 hlg azi zen w hg k hk0 hk shR (fun g t => (R g).getD t 0) fun g hg => (hLR g hg).2.2.2

/-- The grid of order 35 has 2592 directions, and a rule for it exists. -/
example : ∃ (lg : ℕ → List ℝ × List ℝ) (azi zen w : Fin 2592 → ℝ), IsGaussLegendre 36 (lg 36) ∧
    gauss lg 35 = (List.ofFn azi, List.ofFn zen, List.ofFn w) := by
  obtain ⟨r, hr⟩ := exists_gaussLegendre 36 (by norm_num)
  obtain ⟨h1, h2, h3, -⟩ := C27_gauss (fun _ => r) 35 hr
  have key : ∀ (n : ℕ) (l : List ℝ), l.length = n → List.ofFn (fun i : Fin n => l.getD i 0) = l := by
    intro n l hl
    apply List.ext_getElem
    · rw [List.length_ofFn, hl]
    · intro i a b; simp [List.getD_eq_getElem?_getD, b]
  refine ⟨fun _ => r, fun i => (gauss (fun _ => r) 35).1.getD i 0, fun i => (gauss (fun _ => r) 35).2.1.getD i 0,
    fun i => (gauss (fun _ => r) 35).2.2.getD i 0, hr, ?_⟩
  rw [key _ _ h1, key _ _ h2, key _ _ h3]

/-- C94: the file for 44100 Hz holds the same responses whatever sampling rate the source declares. -/
theorem C94_source_rate (lg : ℕ → List ℝ × List ℝ) (rs : Resampler) (file : FabianFile) (rate : ℝ) (oa oz : Option (List ℝ)) (jobs : Option ℤ) (cpus : ℕ)
    (o48 o96 : List ℕ × List ℕ) :
    fileFor (getDefaultHrirs lg rs file oa oz jobs cpus o48 o96) 44100 = fileFor (getDefaultHrirs lg rs { file with rate := rate } oa oz jobs cpus o48 o96) 44100 := by
  unfold getDefaultHrirs
  rcases defaultGrid lg oa oz with e | grid
  · rfl
  simp only [Except.bind]
  rcases Sph.pairDirs grid.1 grid.2 with e | dirs
  · rfl
  simp only
  rcases earHrtf file.shL dirs with e | hl
  · rfl
  simp only
  rcases earHrtf file.shR dirs with e | hr
  · rfl
  simp only
  by_cases hb : file.BL ≠ file.BR
  · rw [if_pos hb, if_pos hb]
  rw [if_neg hb, if_neg hb]
  rcases irfftRows hl with e | l
  · rfl
  simp only
  rcases irfftRows hr with e | r
  · rfl
  simp [fileFor, Except.bind]

/-- C94: one angle without the other raises `TypeError`, ears with different numbers of frequencies `AssertionError`, a single frequency
`ValueError`. -/
theorem C94_errors (lg : ℕ → List ℝ × List ℝ) (rs : Resampler) (file : FabianFile) (jobs : Option ℤ) (cpus : ℕ) (o48 o96 : List ℕ × List ℕ) (azi zen : List ℝ) :
    getDefaultHrirs lg rs file (some azi) none jobs cpus o48 o96 = .error .typeError ∧
    getDefaultHrirs lg rs file none (some zen) jobs cpus o48 o96 = .error .typeError ∧
    (azi.length = zen.length → azi.length ≠ 1 → ∀ N M : ℕ, file.KL = (N + 1) ^ 2 → file.KR = (M + 1) ^ 2 →
      (file.BL ≠ file.BR → getDefaultHrirs lg rs file (some azi) (some zen) jobs cpus o48 o96 = .error .assertionError) ∧
      (file.BL = 1 → file.BR = 1 → getDefaultHrirs lg rs file (some azi) (some zen) jobs cpus o48 o96 = .error .valueError)) := by
  refine ⟨rfl, rfl, fun hlen h1 N M hN hM => ?_⟩
  have hp : Sph.pairDirs azi zen = .ok (azi.zip zen) := by
    unfold Sph.pairDirs
    split
    · simp at hlen; omega
    · rw [if_pos hlen]
  obtain ⟨rate, KL, BL, shL, KR, BR, shR⟩ := file
  simp only at hN hM
  subst hN hM
  have hL : ∃ H, earHrtf shL (azi.zip zen) = .ok H := ⟨_, inverseShtC_eq _ _ _ none (.inl rfl)⟩
  have hR : ∃ H, earHrtf shR (azi.zip zen) = .ok H := ⟨_, inverseShtC_eq _ _ _ none (.inl rfl)⟩
  obtain ⟨HL, hL⟩ := hL
  obtain ⟨HR, hR⟩ := hR
  constructor
  · intro hb
    unfold getDefaultHrirs
    simp only [defaultGrid, Except.bind]
    rw [hp]
    simp only
    rw [hL]
    simp only
    rw [hR]
    simp only
    rw [if_pos hb]
  · intro h1 h2
    simp only at h1 h2
    subst h1 h2
    unfold getDefaultHrirs
    simp only [defaultGrid, Except.bind]
    rw [hp]
    simp only
    rw [hL]
    simp only
    rw [hR]
    simp only
    rw [if_neg (by simp)]
    unfold irfftRows
    rw [if_pos (by norm_num)]

/-! ### C95 -/

theorem flatten_rows_getD {α : Type} (d : α) (T : ℕ) : ∀ (rows : List (List α)), (∀ x ∈ rows, x.length = T) → ∀ r k : ℕ, r < rows.length → k < T →
    rows.flatten.getD (r * T + k) d = (rows.getD r []).getD k d
  | [], _, r, k, hr, _ => by simp at hr
  | x :: xs, h, r, k, hr, hk => by
    have hx : x.length = T := h x (by simp)
    rw [List.flatten_cons]
    rcases r with _ | r
    · rw [List.getD_append _ _ _ _ (by omega)]; simp
    · rw [List.getD_append_right _ _ _ _ (by rw [hx]; nlinarith), hx, show (r + 1) * T + k - T = r * T + k by rw [Nat.add_mul]; omega,
        flatten_rows_getD d T xs (fun y hy => h y (by simp [hy])) r k (by simpa using hr) hk]
      simp

/-- C95: stacked spectra with at least two bins: as many spectra, each that of the resampled impulse response. -/
theorem C95_spectrum {R h : ℕ} (rs : Resampler) (X : Matrix (Fin R) (Fin (h + 1)) ℂ) (fs fsNew : ℝ) (hR : 1 < R) (hh : 0 < h) (L : ℕ)
    (hL : L = rs.len fs fsNew (2 * h)) (h2 : 2 ≤ L) :
    ∃ (Y : NDArray ℂ) (x : Fin R → List ℝ), resampleSpectrum rs X fs fsNew = .ok Y ∧ Y.shape = [R, L / 2 + 1] ∧
      ∀ r : Fin R, (x r).length = 2 * h ∧ HasSpectrum h (fun t => (x r).getD t 0) (fun k => if hk : k < h + 1 then X r ⟨k, hk⟩ else 0) ∧
        ∀ k < L / 2 + 1, Y.data.getD (r * (L / 2 + 1) + k) 0
          = ∑ t ∈ Finset.range L, (((rs.run fs fsNew (x r)).getD t 0 : ℝ) : ℂ) * Complex.exp (-(2 * π * Complex.I * (k * t) / L)) := by
  set x : Fin R → List ℝ := fun r => (List.range (2 * h)).map fun t : ℕ => irfftAt (h + 1) (fun k => if hk : k < h + 1 then X r ⟨k, hk⟩ else 0) t with hx
  have hrows : Io.irfftRows X = .ok (List.ofFn x) := by
    unfold irfftRows
    rw [if_neg (by omega)]; rfl
  have hxl : ∀ r, (x r).length = 2 * h := fun r => by simp [hx]
  refine ⟨⟨[R, L / 2 + 1], ((List.ofFn x).map fun r => rfftRow (rs.run fs fsNew r)).flatten⟩, x, ?_, rfl, fun r => ⟨hxl r, irfft_row_spectrum h hh _, ?_⟩⟩
  · unfold resampleSpectrum
    rw [hrows]
    simp only [Except.bind, Nat.add_sub_cancel, ← hL]
    rw [if_neg (by omega)]
    unfold NDArray.squeeze
    simp [show R ≠ 1 by omega]
    omega
  · intro k hk
    have hrun : ∀ r, (rs.run fs fsNew (x r)).length = L := fun r => by rw [rs.run_length, hxl, hL]
    rw [flatten_rows_getD 0 (L / 2 + 1) _ _ r.val k (by simp) hk]
    · have hr : ((List.ofFn x).map fun r => rfftRow (rs.run fs fsNew r)).getD r [] = rfftRow (rs.run fs fsNew (x r)) := by
        rw [List.getD_eq_getElem?_getD, List.getElem?_map, List.getElem?_ofFn, dif_pos r.2]; rfl
      rw [hr]
      unfold rfftRow
      rw [hrun, List.getD_eq_getElem?_getD, List.getElem?_map, List.getElem?_range hk]
      rfl
    · intro y hy
      obtain ⟨z, hz, rfl⟩ := List.mem_map.1 hy
      obtain ⟨i, rfl⟩ := (List.mem_ofFn' _ _).1 hz
      simp [rfftRow, hrun]

/-- C95, partial (missing: signals with an odd number of samples, for which it is false): at unchanged rate (where the resampler copies)
every spectrum is returned, except that the first and the last bin lose their
imaginary part. -/
theorem C95_same_rate_partial {R h : ℕ} (rs : Resampler) (X : Matrix (Fin R) (Fin (h + 1)) ℂ) (fs : ℝ) (hR : 1 < R) (hh : 0 < h)
    (hcopy : ∀ x, rs.run fs fs x = x) :
    ∃ Y : NDArray ℂ, resampleSpectrum rs X fs fs = .ok Y ∧ Y.shape = [R, h + 1] ∧
      ∀ (r : Fin R) (k : Fin (h + 1)), Y.data.getD (r * (h + 1) + k) 0 = if k.val = 0 ∨ k.val = h then ((X r k).re : ℂ) else X r k := by
  have hlen : rs.len fs fs (2 * h) = 2 * h := by
    have := rs.run_length fs fs (List.replicate (2 * h) 0)
    rw [hcopy] at this
    simpa using this.symm
  obtain ⟨Y, x, h1, h2, h3⟩ := C95_spectrum rs X fs fs hR hh (2 * h) hlen.symm (by omega)
  have e : 2 * h / 2 = h := by omega
  rw [e] at h2 h3
  refine ⟨Y, h1, h2, fun r k => ?_⟩
  obtain ⟨h4, h5, h6⟩ := h3 r
  rw [h6 k.val k.2, hcopy]
  have := h5 k.val (by omega)
  simp only at this
  rw [dif_pos k.2] at this
  exact this

/-- C95 is false of responses with an odd number of samples: three samples have two bins, the second of which is returned without its
imaginary part. -/
theorem C95_odd_fails (rs : Resampler) (fs : ℝ) (hcopy : ∀ x, rs.run fs fs x = x) :
    let X : Matrix (Fin 2) (Fin (1 + 1)) ℂ := fun _ k => (rfftRow [0, 1, 0]).getD k 0
    ∃ Y, resampleSpectrum rs X fs fs = .ok Y ∧ Y.data.getD 1 0 ≠ X 0 1 := by
  intro X
  obtain ⟨Y, h1, -, h3⟩ := C95_same_rate_partial rs X fs (by norm_num) (by norm_num : 0 < 1) hcopy
  refine ⟨Y, h1, ?_⟩
  have := h3 0 1
  simp at this
  rw [List.getD_eq_getElem?_getD, this]
  intro hc
  have him := congrArg Complex.im hc
  rw [Complex.ofReal_im] at him
  have hX : X 0 1 = Complex.exp (-(2 * π * Complex.I / 3)) := by
    show (rfftRow [0, 1, 0]).getD 1 0 = _
    simp [rfftRow, Parsa.dft, List.range_succ, Finset.sum_range_succ]
  rw [hX, show -(2 * (π : ℂ) * Complex.I / 3) = ((-(2 * π / 3) : ℝ) : ℂ) * Complex.I by push_cast; ring, Complex.exp_ofReal_mul_I_im, sin_neg] at him
  have : 0 < sin (2 * π / 3) := sin_pos_of_pos_of_lt_pi (by positivity) (by have := pi_pos; linarith)
  linarith

/-- C95: a single spectrum is returned one-dimensional; less than two bins raise `ValueError`, as does a result without samples. -/
theorem C95_single (rs : Resampler) (fs fsNew : ℝ) :
    (∀ (h : ℕ) (X : Matrix (Fin 1) (Fin (h + 1)) ℂ), 0 < h → 2 ≤ rs.len fs fsNew (2 * h) →
      ∃ Y, resampleSpectrum rs X fs fsNew = .ok Y ∧ Y.shape = [rs.len fs fsNew (2 * h) / 2 + 1]) ∧
    (∀ (R B : ℕ) (X : Matrix (Fin R) (Fin B) ℂ), B < 2 ∨ rs.len fs fsNew (2 * (B - 1)) < 1 → resampleSpectrum rs X fs fsNew = .error .valueError) := by
  constructor
  · intro h X hh h2
    unfold resampleSpectrum irfftRows
    rw [if_neg (by omega)]
    simp only [Except.bind, Nat.add_sub_cancel]
    rw [if_neg (by omega)]
    refine ⟨_, rfl, ?_⟩
    unfold NDArray.squeeze
    simp
    omega
  · intro R B X hB
    unfold resampleSpectrum irfftRows
    by_cases h : B < 2
    · rw [if_pos h]; rfl
    · rw [if_neg h]
      simp only [Except.bind]
      rw [if_pos (by omega)]

example : ∃ Y : NDArray ℂ, resampleSpectrum copyResampler (fun _ k => ![1, Complex.I, 2] k : Matrix (Fin 2) (Fin (2 + 1)) ℂ) 1 1 = .ok Y ∧ Y.data.getD 1 0 = Complex.I := by
  obtain ⟨Y, h1, -, h2⟩ := C95_same_rate_partial copyResampler (fun _ k => ![1, Complex.I, 2] k : Matrix (Fin 2) (Fin (2 + 1)) ℂ) 1 (by norm_num) (by norm_num) (fun _ => rfl)
  exact ⟨Y, h1, by simpa using h2 0 1⟩

/-- `C95_spectrum` and `C95_odd_fails` with a resampler that copies. -/
example : ∃ Y : NDArray ℂ, resampleSpectrum copyResampler (fun _ k => ![1, Complex.I, 2] k : Matrix (Fin 2) (Fin (2 + 1)) ℂ) 1 1 = .ok Y ∧ Y.shape = [2, 4 / 2 + 1] := by
  obtain ⟨Y, x, h1, h2, -⟩ := C95_spectrum copyResampler (fun _ k => ![1, Complex.I, 2] k : Matrix (Fin 2) (Fin (2 + 1)) ℂ) 1 1 (by norm_num) (by norm_num) 4 rfl (by norm_num)
  exact ⟨Y, h1, h2⟩

example : ∀ x, copyResampler.run 44100 44100 x = x := fun _ => rfl

end Verif.Props
