import Verif.Props.Turned

/-!
C139: the numbering of the loudspeakers does not matter.
-/

namespace Verif.Props
open Real Matrix Verif.Utils Verif.Decoder Verif.Sph

/-- `F'` lists the triangles of `F` when loudspeaker `l` of `F'` is loudspeaker `σ l` of `F`: any order of the faces and any order of the corners
(`decoder.py` 313-321 `sort_vertices` and the order in which qhull lists the facets depend on the numbering). -/
def SameTriangles {L : ℕ} (σ : Equiv.Perm (Fin L)) (F F' : List (Face L)) : Prop :=
  (∀ f ∈ F, ∃ f' ∈ F', ∀ l, (∃ i, σ (f' i) = l) ↔ ∃ i, f i = l) ∧ ∀ f' ∈ F', ∃ f ∈ F, ∀ l, (∃ i, σ (f' i) = l) ↔ ∃ i, f i = l

theorem sum_face_smul {L : ℕ} {f : Face L} (hinj : Function.Injective f) (points : Fin L → Vec3) (k : Fin L → ℝ) (hk : ∀ l, k l ≠ 0 → ∃ i, f i = l) :
    ∑ l, k l • points l = ∑ i, k (f i) • points (f i) := by
  rw [← Finset.sum_image (s := Finset.univ) (g := f) (f := fun l => k l • points l) (fun a _ b _ e => hinj e)]
  refine (Finset.sum_subset (Finset.subset_univ _) fun l _ hl => ?_).symm
  by_cases h0 : k l = 0
  · rw [h0, zero_smul]
  · obtain ⟨i, hi⟩ := hk l h0
    exact absurd (Finset.mem_image.2 ⟨i, Finset.mem_univ i, hi⟩) hl

/-- Gains on one triangle are unique. -/
theorem renders_unique {L : ℕ} {p : ℝ} (hp : 0 < p) {points : Fin L → Vec3} {f : Face L} (hinj : Function.Injective f)
    (hli : LinearIndependent ℝ fun i => points (f i)) {s : Vec3} {g g' : Fin L → ℝ} (h : RendersOn p points f s g) (h' : RendersOn p points f s g') : g = g' := by
  obtain ⟨c, hc, h1⟩ := h.direction hli
  obtain ⟨c', hc', h1'⟩ := h'.direction hli
  have hsum := sum_face_smul hinj points
  have hz : ∀ i, c' * g (f i) - c * g' (f i) = 0 := by
    refine Fintype.linearIndependent_iff.1 hli _ ?_
    simp only [sub_smul, mul_smul, Finset.sum_sub_distrib, ← Finset.smul_sum]
    rw [← hsum g h.support, ← hsum g' h'.support, h1, h1', smul_comm, sub_self]
  have he : ∀ l, c' * g l = c * g' l := by
    intro l
    by_cases hl : ∃ i, f i = l
    · obtain ⟨i, rfl⟩ := hl
      linarith [hz i]
    · have e1 : g l = 0 := by by_contra h0; exact hl (h.support l h0)
      have e2 : g' l = 0 := by by_contra h0; exact hl (h'.support l h0)
      rw [e1, e2, mul_zero, mul_zero]
  have hn : ∀ (c : ℝ) (k : Fin L → ℝ), 0 < c → npNorm p k = 1 → npNorm p (fun l => c * k l) = c := by
    intro c k hc hk
    have e : ∑ l, |c * k l| ^ p = c ^ p * ∑ l, |k l| ^ p := by
      rw [Finset.mul_sum]
      exact Finset.sum_congr rfl fun l _ => by rw [abs_mul, abs_of_pos hc, mul_rpow hc.le (abs_nonneg _)]
    unfold npNorm at hk ⊢
    rw [e, mul_rpow (rpow_nonneg hc.le _) (Finset.sum_nonneg fun _ _ => rpow_nonneg (abs_nonneg _) _), hk, mul_one, ← rpow_mul hc.le, mul_one_div, div_self hp.ne',
      rpow_one]
  have hcc : c' = c := by rw [← hn c' g hc' h.norm, ← hn c g' hc h'.norm, funext he]
  funext l
  have := he l
  rw [hcc] at this
  exact mul_left_cancel₀ hc.ne' this

theorem renum_perm {L : ℕ} {σ : Equiv.Perm (Fin L)} {f f' : Face L} (hf : Function.Injective f) (h : ∀ l, (∃ i, σ (f' i) = l) ↔ ∃ i, f i = l) :
    ∃ τ : Equiv.Perm (Fin 3), ∀ i, σ (f' (τ i)) = f i := by
  choose t ht using fun i => (h (f i)).2 ⟨i, rfl⟩
  have ti : Function.Injective t := fun a b hab => hf (by rw [← ht a, ← ht b, hab])
  exact ⟨Equiv.ofBijective t (Finite.injective_iff_bijective.1 ti), ht⟩

theorem renum_inside {L : ℕ} {σ : Equiv.Perm (Fin L)} {f f' : Face L} (hf : Function.Injective f) (h : ∀ l, (∃ i, σ (f' i) = l) ↔ ∃ i, f i = l)
    {points points' : Fin L → Vec3} (hpt : ∀ l, points' l = points (σ l)) {p : ℝ} {s : Vec3} : Inside p points' f' s ↔ Inside p points f s := by
  obtain ⟨τ, hτ⟩ := renum_perm hf h
  have hn : ∀ (ρ : Equiv.Perm (Fin 3)) (c : Vec3), npNorm p (fun i => c (ρ i)) = npNorm p c := fun ρ c => by
    unfold npNorm; rw [Equiv.sum_comp ρ fun i => |c i| ^ p]
  constructor
  · rintro ⟨c, h1, h2, h3⟩
    refine ⟨fun i => c (τ i), ?_, by rw [hn]; exact h2, fun i => by rw [hn]; exact h3 _⟩
    rw [← h1, ← Equiv.sum_comp τ fun i => c i • points' (f' i)]
    exact Finset.sum_congr rfl fun i _ => by rw [hpt, hτ]
  · rintro ⟨c, h1, h2, h3⟩
    refine ⟨fun i => c (τ.symm i), ?_, by rw [hn]; exact h2, fun i => by rw [hn]; exact h3 _⟩
    rw [← h1, ← Equiv.sum_comp τ fun i => c (τ.symm i) • points' (f' i)]
    exact Finset.sum_congr rfl fun i _ => by rw [hpt, hτ, Equiv.symm_apply_apply]

theorem renum_li {L : ℕ} {σ : Equiv.Perm (Fin L)} {f f' : Face L} (hf : Function.Injective f) (h : ∀ l, (∃ i, σ (f' i) = l) ↔ ∃ i, f i = l)
    {points points' : Fin L → Vec3} (hpt : ∀ l, points' l = points (σ l)) (hli : LinearIndependent ℝ fun i => points (f i)) :
    LinearIndependent ℝ fun i => points' (f' i) := by
  obtain ⟨τ, hτ⟩ := renum_perm hf h
  have : (fun i => points' (f' i)) = (fun i => points (f i)) ∘ τ.symm := by
    funext i
    rw [Function.comp, hpt, ← hτ, Equiv.apply_symm_apply]
  rw [this]
  exact hli.comp _ τ.symm.injective

theorem renum_renders {L : ℕ} {σ : Equiv.Perm (Fin L)} {f f' : Face L} (h : ∀ l, (∃ i, σ (f' i) = l) ↔ ∃ i, f i = l)
    {points points' : Fin L → Vec3} (hpt : ∀ l, points' l = points (σ l)) {p : ℝ} {s : Vec3} {g : Fin L → ℝ}
    (hli : LinearIndependent ℝ fun i => points (f i)) (hg : RendersOn p points f s g) : RendersOn p points' f' s fun l => g (σ l) := by
  refine ⟨fun l hl => ?_, ?_, fun l => hg.positive _, fun _ => ?_⟩
  · obtain ⟨i, hi⟩ := (h (σ l)).2 (hg.support _ hl)
    exact ⟨i, σ.injective hi⟩
  · rw [← hg.norm]
    unfold npNorm
    rw [Equiv.sum_comp σ fun l => |g l| ^ p]
  · obtain ⟨c, hc, h1⟩ := hg.direction hli
    refine ⟨c, hc, ?_⟩
    rw [← h1, ← Equiv.sum_comp σ fun l => g l • points l]
    exact Finset.sum_congr rfl fun l _ => by rw [hpt]

/-- What `C29_vbap` and `C30_first` say about one source. -/
theorem vbap_one {L : ℕ} (lstsq : Mat3 → Mat3) (hl : LstsqSpec lstsq) {p : ℝ} (hp : 0 < p) (h : Hull L) (hc : CacheOk lstsq h)
    (hinj : ∀ f ∈ h.valid, Function.Injective f) (hli : ∀ f ∈ h.valid, LinearIndependent ℝ fun i => h.points (f i))
    (hd : ∀ l, h.d l = norm3 (h.points l)) (s : Vec3) : ∃ g : Fin L → ℝ, (vbapHull lstsq p [s] none h).1 = .ok [fun l => h.d l ^ h.a * g l] ∧
      ((g = 0 ∧ ∀ f ∈ h.valid, ¬ Inside p h.points f s) ∨ ∃ f ∈ h.valid, Inside p h.points f s ∧ RendersOn p h.points f s g) := by
  obtain ⟨row, h1, h2⟩ := C30_first lstsq hl hp h hc hinj hli hd s
  obtain ⟨rows, h3, h4, h5⟩ := C29_vbap lstsq hl hp h hc hinj [s]
  rw [h1] at h3
  obtain rfl := Except.ok.inj h3
  obtain ⟨g, rfl, h6⟩ := h5 0 s row rfl rfl
  refine ⟨g, h1, ?_⟩
  rcases h6 with rfl | ⟨f, hf, hr⟩
  · rcases h2 with h2 | h2
    · exact .inl ⟨rfl, h2.2⟩
    · exact absurd (by funext l; simp) h2.1
  · refine .inr ⟨f, hf, ?_, hr⟩
    obtain ⟨c, hc0, h7⟩ := hr.direction (hli f hf)
    rw [sum_face_smul (hinj f hf) h.points g hr.support] at h7
    have hn : npNorm p (fun i => g (f i)) = 1 := by
      rw [← hr.norm, npNorm_face hp f (hinj f hf) g fun l hl => by
        by_contra h0
        obtain ⟨i, hi⟩ := hr.support l h0
        exact hl i hi]
    have hn' : npNorm p (fun i => g (f i) / c) = 1 / c := by
      have e : ∑ i, |g (f i) / c| ^ p = (∑ i, |g (f i)| ^ p) * (1 / c) ^ p := by
        rw [Finset.sum_mul]
        exact Finset.sum_congr rfl fun i _ => by
          rw [div_eq_mul_one_div, abs_mul, abs_of_pos (one_div_pos.2 hc0), mul_rpow (abs_nonneg _) (one_div_pos.2 hc0).le]
      unfold npNorm at hn ⊢
      rw [e, mul_rpow (Finset.sum_nonneg fun _ _ => rpow_nonneg (abs_nonneg _) _) (rpow_nonneg (one_div_pos.2 hc0).le _), hn, one_mul,
        ← rpow_mul (one_div_pos.2 hc0).le, mul_one_div, div_self hp.ne', rpow_one]
    refine ⟨fun i => g (f i) / c, ?_, by rw [hn']; exact (one_div_pos.2 hc0).ne', fun i => ?_⟩
    · have : ∀ i, (g (f i) / c) • h.points (f i) = (1 / c) • (g (f i) • h.points (f i)) := fun i => by rw [smul_smul]; congr 1; ring
      rw [Finset.sum_congr rfl fun i _ => this i, ← Finset.smul_sum, h7, smul_smul, one_div, inv_mul_cancel₀ hc0.ne', one_smul]
    · rw [hn']
      have := hr.positive (f i)
      rwa [div_div_div_cancel_right₀ hc0.ne', div_one]

/-- **C139** VBAP: when the loudspeakers are numbered differently (and the triangles are listed in another order, with their corners in another order), every
source that lies in at most one triangle up to the tolerance gets the same gains, at the new numbers. -/
theorem C139_vbap {L : ℕ} (lstsq : Mat3 → Mat3) (hl : LstsqSpec lstsq) {p : ℝ} (hp : 0 < p) (σ : Equiv.Perm (Fin L)) (h h' : Hull L) (hc : CacheOk lstsq h)
    (hc' : CacheOk lstsq h') (hpt : ∀ l, h'.points l = h.points (σ l)) (hdd : ∀ l, h'.d l = h.d (σ l)) (ha : h'.a = h.a)
    (hinj : ∀ f ∈ h.valid, Function.Injective f) (hinj' : ∀ f ∈ h'.valid, Function.Injective f)
    (hli : ∀ f ∈ h.valid, LinearIndependent ℝ fun i => h.points (f i)) (hd : ∀ l, h.d l = norm3 (h.points l)) (hF : SameTriangles σ h.valid h'.valid)
    (src : List Vec3) (hu : ∀ s ∈ src, ∀ f₁ ∈ h.valid, ∀ f₂ ∈ h.valid, Inside p h.points f₁ s → Inside p h.points f₂ s → f₁ = f₂) :
    ∃ rows, (vbapHull lstsq p src none h).1 = .ok rows ∧ (vbapHull lstsq p src none h').1 = .ok (rows.map fun g l => g (σ l)) := by
  have hli' : ∀ f' ∈ h'.valid, LinearIndependent ℝ fun i => h'.points (f' i) := fun f' hf' => by
    obtain ⟨f, hf, e⟩ := hF.2 f' hf'
    exact renum_li (hinj f hf) e hpt (hli f hf)
  have hd' : ∀ l, h'.d l = norm3 (h'.points l) := fun l => by rw [hdd, hd, hpt]
  have one : ∀ s ∈ src, ∃ row, (vbapHull lstsq p [s] none h).1 = .ok [row] ∧ (vbapHull lstsq p [s] none h').1 = .ok [fun l => row (σ l)] := by
    intro s hs
    obtain ⟨g, h1, h2⟩ := vbap_one lstsq hl hp h hc hinj hli hd s
    obtain ⟨g', h1', h2'⟩ := vbap_one lstsq hl hp h' hc' hinj' hli' hd' s
    have hg : g' = fun l => g (σ l) := by
      rcases h2 with ⟨rfl, h3⟩ | ⟨f, hf, h3, h4⟩ <;> rcases h2' with ⟨rfl, h3'⟩ | ⟨f', hf', h3', h4'⟩
      · rfl
      · obtain ⟨f, hf, e⟩ := hF.2 f' hf'
        exact absurd ((renum_inside (hinj f hf) e hpt).1 h3') (h3 f hf)
      · obtain ⟨f', hf', e⟩ := hF.1 f hf
        exact absurd ((renum_inside (hinj f hf) e hpt).2 h3) (h3' f' hf')
      · obtain ⟨f₂, hf₂, e⟩ := hF.2 f' hf'
        obtain rfl := hu s hs f hf f₂ hf₂ h3 ((renum_inside (hinj f₂ hf₂) e hpt).1 h3')
        exact renders_unique hp (hinj' f' hf') (hli' f' hf') h4' (renum_renders e hpt (hli f hf) h4)
    refine ⟨_, h1, h1'.trans ?_⟩
    rw [hg, ha]
    simp only [hdd]
  obtain ⟨rows, h1, h2, h3⟩ := C30_each lstsq hp h hc hinj src
  obtain ⟨rows', h1', h2', h3'⟩ := C30_each lstsq hp h' hc' hinj' src
  refine ⟨rows, h1, h1'.trans (congrArg _ (List.ext_getElem? fun i => ?_))⟩
  rw [List.getElem?_map]
  cases hs : src[i]? with
  | none =>
    have hi := List.getElem?_eq_none_iff.1 hs
    rw [List.getElem?_eq_none_iff.2 (by omega), List.getElem?_eq_none_iff.2 (by omega)]
    rfl
  | some s =>
    obtain ⟨row, h4, h5⟩ := h3 i s hs
    obtain ⟨row', h4', h5'⟩ := h3' i s hs
    obtain ⟨r, h6, h6'⟩ := one s (List.mem_of_getElem? hs)
    rw [h6] at h4
    rw [h6'] at h4'
    obtain rfl := (List.cons.inj (Except.ok.inj h4)).1
    obtain rfl := (List.cons.inj (Except.ok.inj h4')).1
    rw [h5, h5']
    rfl

theorem renum_shAt {N L : ℕ} (σ : Equiv.Perm (Fin L)) {points points' : Fin L → Vec3} (hpt : ∀ l, points' l = points (σ l)) :
    shAt N points' = (shAt N points).submatrix σ id := by
  ext l q
  show shVec N (dirOf (points' l)).1 (dirOf (points' l)).2 q = _
  rw [hpt]
  rfl

theorem pinv_renum {m n : ℕ} {A : Matrix (Fin m) (Fin n) ℝ} {P : Matrix (Fin n) (Fin m) ℝ} (h : IsPinv A P) (σ : Equiv.Perm (Fin m)) :
    IsPinv (A.submatrix σ id) (P.submatrix id σ) := by
  have pa : P.submatrix id σ * A.submatrix σ id = P * A := by
    rw [Matrix.submatrix_mul_equiv]; rfl
  have ap : A.submatrix σ id * P.submatrix id σ = (A * P).submatrix σ σ := by
    ext i j; rfl
  refine ⟨?_, ?_, ?_, ?_⟩
  · rw [Matrix.mul_assoc, pa]
    conv_rhs => rw [← h.apa, Matrix.mul_assoc]
    ext i j; rfl
  · rw [pa]
    conv_rhs => rw [← h.pap]
    ext i j; rfl
  · rw [ap, Matrix.transpose_submatrix, h.ap]
  · rw [pa, h.pa]

/-- **C139** `sad`, `mad` and `epad` (the last for loudspeakers in general position): the signals of differently numbered loudspeakers are the same, at the new numbers. -/
theorem C139_decoders {L S K N : ℕ} (lstsq : Mat3 → Mat3)
    (pinv : {m n : ℕ} → Matrix (Fin m) (Fin n) ℝ → Matrix (Fin n) (Fin m) ℝ) (hpinv : ∀ {m n : ℕ} (A : Matrix (Fin m) (Fin n) ℝ), IsPinv A (pinv A))
    (svd : {m n : ℕ} → Matrix (Fin m) (Fin n) ℝ → Matrix (Fin m) (Fin m) ℝ × Matrix (Fin n) (Fin n) ℝ)
    (hsvd : ∀ {m n : ℕ} (A : Matrix (Fin m) (Fin n) ℝ), IsSvd A (svd A).1 (svd A).2) (σ : Equiv.Perm (Fin L)) (h h' : Hull L)
    (hpt : ∀ l, h'.points l = h.points (σ l)) (F : Matrix (Fin K) (Fin S) ℝ) :
    sad lstsq F h' (some N) = (sad lstsq F h (some N)).map (fun X => X.submatrix σ id) ∧
      mad lstsq pinv F h' (some N) = (mad lstsq pinv F h (some N)).map (fun X => X.submatrix σ id) ∧
      ((N + 1) ^ 2 ≤ L → LinearIndependent ℝ (shAt N h.points).col →
        epad lstsq svd F h' (some N) = (epad lstsq svd F h (some N)).map (fun X => X.submatrix σ id)) := by
  have hA := renum_shAt (N := N) σ hpt
  have happ : ∀ D : Matrix (Fin L) (Fin ((N + 1) ^ 2)) ℝ, applyTruncated (D.submatrix σ id) F = (applyTruncated D F).map fun X => X.submatrix σ id := by
    intro D
    unfold applyTruncated
    split_ifs <;> rfl
  refine ⟨?_, ?_, fun hL hi => ?_⟩
  · unfold sad
    show applyTruncated _ _ = _
    rw [hA]
    exact happ (√(4 * π / L) • (√(4 * π / ((N : ℝ) + 1) ^ 2) • shAt N h.points))
  · unfold mad
    show applyTruncated (√((L : ℝ) / ((N : ℝ) + 1) ^ 2) • (pinv (shAt N h'.points)).transpose) _ = _
    rw [hA, pinv_unique (hpinv ((shAt N h.points).submatrix σ id)) (pinv_renum (hpinv (shAt N h.points)) σ)]
    exact happ (√((L : ℝ) / ((N : ℝ) + 1) ^ 2) • (pinv (shAt N h.points)).transpose)
  · have hi' : LinearIndependent ℝ ((shAt N h.points).submatrix σ id).col := by
      rw [← Matrix.mulVec_injective_iff] at hi ⊢
      intro x y hxy
      refine hi ?_
      funext l
      have := congrFun hxy (σ.symm l)
      simpa [Matrix.mulVec, dotProduct] using this
    have hV := hsvd (shAt N h.points)
    have hS : IsSvd ((shAt N h.points).submatrix σ id) ((svd (shAt N h.points)).1.submatrix σ id) (svd (shAt N h.points)).2 := by
      obtain ⟨D, h1, h2, h3⟩ := hV.diag
      refine ⟨?_, hV.vh, D, h1, ?_, h3⟩
      · rw [Matrix.transpose_submatrix, Matrix.submatrix_mul_equiv, hV.u]; rfl
      · conv_lhs => rw [h2]
        ext i j; rfl
    unfold epad
    show applyTruncated (√((L : ℝ) / ((N : ℝ) + 1) ^ 2) • (√(4 * π / L) • ((svd (shAt N h'.points)).1 * npEye L ((N + 1) ^ 2) * (svd (shAt N h'.points)).2))) _ = _
    rw [hA, svd_unique hL hi' (hsvd ((shAt N h.points).submatrix σ id)) hS]
    exact happ (√((L : ℝ) / ((N : ℝ) + 1) ^ 2) • (√(4 * π / L) • ((svd (shAt N h.points)).1 * npEye L ((N + 1) ^ 2) * (svd (shAt N h.points)).2)))

/-- **C139** Nearest loudspeaker: a source with a single nearest loudspeaker selects the same one under any numbering. -/
theorem C139_nls {L : ℕ} (σ : Equiv.Perm (Fin L)) (h h' : Hull L) (hpt : ∀ l, h'.points l = h.points (σ l)) (hdd : ∀ l, h'.d l = h.d (σ l)) (ha : h'.a = h.a)
    (s : Vec3) (hu : ∃ b, ∀ l, l ≠ b → s ⬝ᵥ (fun c => h.points l c / h.d l) < s ⬝ᵥ fun c => h.points b c / h.d b) :
    ∃ g, nearestLoudspeaker h s = .ok g ∧ nearestLoudspeaker h' s = .ok fun l => g (σ l) := by
  obtain ⟨b, hb⟩ := hu
  have hL : 0 < L := b.pos
  obtain ⟨i, h1, h2, -⟩ := npArgmax_ofFn hL fun l => s ⬝ᵥ fun c => h.points l c / h.d l
  obtain ⟨j, h1', h2', -⟩ := npArgmax_ofFn hL fun l => s ⬝ᵥ fun c => h'.points l c / h'.d l
  have hi : i = b := by
    by_contra hne
    exact absurd (h2 b) (not_le.2 (hb i hne))
  have hj : σ j = b := by
    by_contra hne
    have := h2' (σ.symm b)
    simp only [hpt, hdd, Equiv.apply_symm_apply] at this
    exact absurd this (not_le.2 (hb (σ j) hne))
  refine ⟨fun l => if (l : ℕ) = i then 1 * h.d l ^ h.a else 0, ?_, ?_⟩
  · unfold nearestLoudspeaker
    simp only [h1]; rfl
  · unfold nearestLoudspeaker
    simp only [h1']
    show Except.ok _ = _
    congr 1
    funext l
    have : ((l : ℕ) = j) = ((σ l : ℕ) = i) := by
      rw [hi, ← hj]
      exact propext ⟨fun e => by rw [Fin.ext e], fun e => congrArg _ (σ.injective (Fin.ext e))⟩
    simp only [this, hdd, ha]

theorem cross_corners (P : Fin 3 → Vec3) (τ : Equiv.Perm (Fin 3)) :
    crossProduct (P (τ 1) - P (τ 0)) (P (τ 2) - P (τ 0)) = crossProduct (P 1 - P 0) (P 2 - P 0) ∨
      crossProduct (P (τ 1) - P (τ 0)) (P (τ 2) - P (τ 0)) = -crossProduct (P 1 - P 0) (P 2 - P 0) := by
  have ht : ∀ τ : Equiv.Perm (Fin 3), (τ 0 = 0 ∧ τ 1 = 1 ∧ τ 2 = 2) ∨ (τ 0 = 1 ∧ τ 1 = 2 ∧ τ 2 = 0) ∨ (τ 0 = 2 ∧ τ 1 = 0 ∧ τ 2 = 1) ∨
      (τ 0 = 0 ∧ τ 1 = 2 ∧ τ 2 = 1) ∨ (τ 0 = 1 ∧ τ 1 = 0 ∧ τ 2 = 2) ∨ (τ 0 = 2 ∧ τ 1 = 1 ∧ τ 2 = 0) := by decide
  rcases ht τ with ⟨a, b, c⟩ | ⟨a, b, c⟩ | ⟨a, b, c⟩ | ⟨a, b, c⟩ | ⟨a, b, c⟩ | ⟨a, b, c⟩ <;> rw [a, b, c]
  · exact .inl rfl
  · left; ext i; fin_cases i <;> simp [cross_apply] <;> ring
  · left; ext i; fin_cases i <;> simp [cross_apply] <;> ring
  · right; ext i; fin_cases i <;> simp [cross_apply] <;> ring
  · right; ext i; fin_cases i <;> simp [cross_apply] <;> ring
  · right; ext i; fin_cases i <;> simp [cross_apply] <;> ring

theorem renum_centroid {L : ℕ} {σ : Equiv.Perm (Fin L)} {f f' : Face L} (hf : Function.Injective f) (h : ∀ l, (∃ i, σ (f' i) = l) ↔ ∃ i, f i = l)
    {points points' : Fin L → Vec3} (hpt : ∀ l, points' l = points (σ l)) : centroid points' f' = centroid points f := by
  obtain ⟨τ, hτ⟩ := renum_perm hf h
  funext c
  unfold centroid
  rw [← Equiv.sum_comp τ fun i => points' (f' i) c]
  simp only [hpt, hτ]

theorem renum_barycenter {L : ℕ} {σ : Equiv.Perm (Fin L)} {points points' : Fin L → Vec3} (hpt : ∀ l, points' l = points (σ l)) :
    calculateBarycenter points' = calculateBarycenter points := by
  funext c
  unfold calculateBarycenter
  simp only [hpt]
  rw [Equiv.sum_comp σ fun l => points l c]

/-- The face is not seen edge-on from the centre of mass of the loudspeakers, up to the tolerance of `calculate_face_normals`. -/
def Sided {L : ℕ} (points : Fin L → Vec3) (f : Face L) : Prop :=
  10e-6 < |crossProduct (points (f 1) - points (f 0)) (points (f 2) - points (f 0)) ⬝ᵥ (calculateBarycenter points - centroid points f)|

/-- All faces of the octahedron are seen from its centre. -/
example : ∀ f ∈ Oct.faces, Sided Oct.pts f := by
  intro f hf
  unfold Sided
  rw [Oct.barycenter_pts]
  simp only [Oct.faces, List.mem_cons, List.not_mem_nil, or_false] at hf
  rcases hf with rfl | rfl | rfl | rfl | rfl | rfl | rfl | rfl <;>
    simp [Oct.pts, centroid, cross_apply, dotProduct, Fin.sum_univ_three] <;> norm_num

theorem renum_normal {L : ℕ} {σ : Equiv.Perm (Fin L)} {f f' : Face L} (hf : Function.Injective f) (h : ∀ l, (∃ i, σ (f' i) = l) ↔ ∃ i, f i = l)
    {points points' : Fin L → Vec3} (hpt : ∀ l, points' l = points (σ l)) (hs : Sided points f) :
    faceNormal points' (calculateBarycenter points') 10e-6 false f' = faceNormal points (calculateBarycenter points) 10e-6 false f := by
  unfold faceNormal
  rw [renum_barycenter hpt, renum_centroid hf h hpt]
  obtain ⟨τ, hτ⟩ := renum_perm hf h
  have hτ' : ∀ i, points' (f' i) = points (f (τ.symm i)) := fun i => by rw [hpt, ← hτ, Equiv.apply_symm_apply]
  simp only [hτ', add_sub_cancel_left, Bool.false_eq_true, if_false]
  unfold Sided at hs
  rcases cross_corners (fun i => points (f i)) τ.symm with e | e
  · rw [e]
  · rw [e, neg_dotProduct, neg_neg]
    set x := crossProduct (points (f 1) - points (f 0)) (points (f 2) - points (f 0)) ⬝ᵥ (calculateBarycenter points - centroid points f)
    rcases lt_abs.1 hs with h1 | h1
    · rw [if_neg (by norm_num at h1 ⊢; linarith), if_pos h1]
    · rw [if_pos h1, if_neg (by norm_num at h1 ⊢; linarith)]

/-- **C139** A new setup of differently numbered loudspeakers: the same positions and distances, and the same valid triangles (assuming that qhull finds the same
triangles, in whatever order). -/
theorem C139_setup {L : ℕ} (qhull : (L : ℕ) → (Fin L → Vec3) → Py (List (Face L))) (σ : Equiv.Perm (Fin L)) (points : Fin L → Vec3) (listener : Vec3)
    (fs fs' : List (Face L)) (hq : qhull L (fun l => points l - listener) = .ok fs) (hq' : qhull L (fun l => points (σ l) - listener) = .ok fs')
    (hinj : ∀ f ∈ fs, Function.Injective f) (hF : SameTriangles σ fs fs') :
    ∃ h h', mkHull qhull points listener = .ok h ∧ mkHull qhull (fun l => points (σ l)) listener = .ok h' ∧
      (∀ l, h'.points l = h.points (σ l)) ∧ (∀ l, h'.d l = h.d (σ l)) ∧ h'.a = h.a ∧ h'.barycenter = h.barycenter ∧
      SameTriangles σ h.simplices h'.simplices ∧ SameTriangles σ h.valid h'.valid := by
  unfold mkHull
  simp only [hq, hq']
  have hS : SameTriangles σ (sortVertices fs) (sortVertices fs') := by
    have hr : ∀ (g : Face L) (l), (∃ i, sortFace g i = l) ↔ ∃ i, g i = l := fun g l => by
      have := Set.ext_iff.1 (range_sortFace g) l
      simpa using this
    have hr' : ∀ (g : Face L) (l), (∃ i, σ (sortFace g i) = l) ↔ ∃ i, σ (g i) = l := fun g l => by
      have := hr g (σ.symm l)
      simpa [Equiv.eq_symm_apply] using this
    refine ⟨fun f hf => ?_, fun f' hf' => ?_⟩
    · obtain ⟨g, hg, rfl⟩ := List.mem_map.1 hf
      obtain ⟨g', hg', e⟩ := hF.1 g hg
      exact ⟨sortFace g', List.mem_map.2 ⟨g', hg', rfl⟩, fun l => by rw [hr, hr', e]⟩
    · obtain ⟨g', hg', rfl⟩ := List.mem_map.1 hf'
      obtain ⟨g, hg, e⟩ := hF.2 g' hg'
      exact ⟨sortFace g, List.mem_map.2 ⟨g, hg, rfl⟩, fun l => by rw [hr, hr', e]⟩
  have hmem : ∀ (pts : Fin L → Vec3) (S : List (Face L)) (b : Vec3) (f : Face L), f ∈ checkListenerInside S (calculateCentroids pts S) b 0 ↔
      f ∈ S ∧ ¬ (0 - centroid pts f) ⬝ᵥ (b - centroid pts f) < 0 := by
    intro pts S b f
    rw [mem_listenerInside, not_lt]
  refine ⟨_, _, rfl, rfl, fun _ => rfl, fun _ => rfl, rfl, renum_barycenter (σ := σ) fun _ => rfl, hS, ?_⟩
  have hb : calculateBarycenter (fun l => points (σ l) - listener) = calculateBarycenter fun l => points l - listener := renum_barycenter (σ := σ) fun _ => rfl
  have hcen : ∀ f f' : Face L, Function.Injective f → (∀ l, (∃ i, σ (f' i) = l) ↔ ∃ i, f i = l) →
      centroid (fun l => points (σ l) - listener) f' = centroid (fun l => points l - listener) f := fun f f' hf e => renum_centroid hf e fun _ => rfl
  have hinjS : ∀ f ∈ sortVertices fs, Function.Injective f := fun f hf => by
    obtain ⟨g, hg, rfl⟩ := List.mem_map.1 hf
    exact inj_sortFace g (hinj g hg)
  refine ⟨fun f hf => ?_, fun f' hf' => ?_⟩
  · obtain ⟨h1, h2⟩ := (hmem _ _ _ f).1 hf
    obtain ⟨f', h3, e⟩ := hS.1 f h1
    refine ⟨f', (hmem _ _ _ f').2 ⟨h3, ?_⟩, e⟩
    rw [hb, hcen f f' (hinjS f h1) e]
    exact h2
  · obtain ⟨h1, h2⟩ := (hmem _ _ _ f').1 hf'
    obtain ⟨f, h3, e⟩ := hS.2 f' h1
    refine ⟨f, (hmem _ _ _ f).2 ⟨h3, ?_⟩, e⟩
    rw [hb, hcen f f' (hinjS f h3) e] at h2
    exact h2

open Classical in
/-- **C139** `pop_triangles` with the same limits removes the same triangles, whatever the numbering of loudspeakers and triangles (a limit of the normals: when no
triangle is seen edge-on). -/
theorem C139_pop {L : ℕ} (σ : Equiv.Perm (Fin L)) {h h' : Hull L} (hw : WellFormed h) (hw' : WellFormed h') (hpt : ∀ l, h'.points l = h.points (σ l))
    (hF : SameTriangles σ h.valid h'.valid) (normal aperture opening : Option ℝ) (hs : normal = none ∨ ∀ f ∈ h.valid, Sided h.points f)
    (blacklist : Option (List (Fin L))) :
    SameTriangles σ (popTriangles h normal aperture opening (blacklist.map (List.map Fin.val))).valid
      (popTriangles h' normal aperture opening (blacklist.map (List.map fun l => (σ.symm l).val))).valid := by
  have key : ∀ f ∈ h.valid, ∀ f' : Face L, (∀ l, (∃ i, σ (f' i) = l) ↔ ∃ i, f i = l) →
      (Passes h' normal aperture opening (blacklist.map (List.map fun l => (σ.symm l).val)) f' ↔
        Passes h normal aperture opening (blacklist.map (List.map Fin.val)) f) := by
    intro f hf f' e
    have hfi := hw.inj f (hw.valid.subset hf)
    obtain ⟨τ, hτ⟩ := renum_perm hfi e
    have hτ' : ∀ i, h'.points (f' (τ i)) = h.points (f i) := fun i => by rw [hpt, hτ]
    have hi : ∀ l, (∀ i, f' i ≠ σ.symm l) ↔ ∀ i, f i ≠ l := fun l => by
      have := not_congr (e l)
      push Not at this
      rw [← this]
      exact forall_congr' fun i => not_congr (Equiv.eq_symm_apply σ)
    have hN : ∀ l, normal = some l → angleBetween (centroid h'.points f') (faceNormal h'.points (calculateBarycenter h'.points) 10e-6 false f')
        = angleBetween (centroid h.points f) (faceNormal h.points (calculateBarycenter h.points) 10e-6 false f) := by
      intro l hl
      rcases hs with hs | hs
      · rw [hs] at hl; cases hl
      · rw [renum_centroid hfi e hpt, renum_normal hfi e hpt (hs f hf)]
    constructor
    · rintro ⟨h1, h2, h3, h4⟩
      refine ⟨fun l hl => ?_, fun l hl i j hij => ?_, fun l hl i j k h5 h6 h7 => ?_, fun bl hbl => ?_⟩
      · rw [← hN l hl]; exact h1 l hl
      · rw [← hτ', ← hτ']; exact h2 l hl _ _ fun h => hij (τ.injective h)
      · rw [← hτ', ← hτ', ← hτ']; exact h3 l hl _ _ _ (fun h => h5 (τ.injective h)) (fun h => h6 (τ.injective h)) fun h => h7 (τ.injective h)
      · obtain ⟨b, hb, rfl⟩ := Option.map_eq_some_iff.1 hbl
        obtain ⟨x, hx, h8⟩ := h4 _ (by rw [hb]; rfl)
        obtain ⟨y, hy, rfl⟩ := List.mem_map.1 hx
        refine ⟨y, List.mem_map.2 ⟨y, hy, rfl⟩, fun i h9 => (hi y).1 (fun i h => h8 i (by rw [h])) i (Fin.ext h9)⟩
    · rintro ⟨h1, h2, h3, h4⟩
      have hτs : ∀ i, h'.points (f' i) = h.points (f (τ.symm i)) := fun i => by rw [← hτ', Equiv.apply_symm_apply]
      refine ⟨fun l hl => ?_, fun l hl i j hij => ?_, fun l hl i j k h5 h6 h7 => ?_, fun bl hbl => ?_⟩
      · rw [hN l hl]; exact h1 l hl
      · rw [hτs, hτs]; exact h2 l hl _ _ fun h => hij (τ.symm.injective h)
      · rw [hτs, hτs, hτs]; exact h3 l hl _ _ _ (fun h => h5 (τ.symm.injective h)) (fun h => h6 (τ.symm.injective h)) fun h => h7 (τ.symm.injective h)
      · obtain ⟨b, hb, rfl⟩ := Option.map_eq_some_iff.1 hbl
        obtain ⟨x, hx, h8⟩ := h4 _ (by rw [hb]; rfl)
        obtain ⟨y, hy, rfl⟩ := List.mem_map.1 hx
        refine ⟨σ.symm y, List.mem_map.2 ⟨y, hy, rfl⟩, fun i h9 => (hi y).2 (fun i h => h8 i (by rw [h])) i (Fin.ext h9)⟩
  rw [C35_survive hw, C35_survive hw']
  refine ⟨fun f hf => ?_, fun f' hf' => ?_⟩
  · obtain ⟨hf, hp⟩ := List.mem_filter.1 hf
    obtain ⟨f', hf', e⟩ := hF.1 f hf
    exact ⟨f', List.mem_filter.2 ⟨hf', decide_eq_true ((key f hf f' e).2 (of_decide_eq_true hp))⟩, e⟩
  · obtain ⟨hf', hp⟩ := List.mem_filter.1 hf'
    obtain ⟨f, hf, e⟩ := hF.2 f' hf'
    exact ⟨f, List.mem_filter.2 ⟨hf, decide_eq_true ((key f hf f' e).1 (of_decide_eq_true hp))⟩, e⟩

/-- The octahedron with left and right exchanged in the numbering. -/
noncomputable def octSwap : Hull 6 := { Oct.hull with points := fun l => Oct.pts (Equiv.swap 2 3 l) }

theorem oct_same : SameTriangles (Equiv.swap 2 3) Oct.hull.valid octSwap.valid := by
  have : (∀ f ∈ Oct.faces, ∃ f' ∈ Oct.faces, ∀ l, (∃ i, Equiv.swap 2 3 (f' i) = l) ↔ ∃ i, f i = l) ∧
    ∀ f' ∈ Oct.faces, ∃ f ∈ Oct.faces, ∀ l, (∃ i, Equiv.swap 2 3 (f' i) = l) ↔ ∃ i, f i = l := by decide +kernel
  exact this

theorem octSwap_cache (lstsq : Mat3 → Mat3) : CacheOk lstsq octSwap := nofun

theorem octSwap_li : ∀ f ∈ octSwap.valid, LinearIndependent ℝ fun i => octSwap.points (f i) := fun f' hf' => by
  obtain ⟨f, hf, e⟩ := oct_same.2 f' hf'
  exact renum_li (Oct.inj f hf) e (fun _ => rfl) (Oct.li f hf)

theorem octSwap_d (l : Fin 6) : octSwap.d l = norm3 (octSwap.points l) := (Oct.norm_pts _).symm

/-- A source close to the median plane is inside the first face, for either numbering. -/
theorem near_median (b : ℝ) (hb : b = 1 ∨ b = -1) (points : Fin 6 → Vec3) (h0 : points 0 = ![1, 0, 0]) (h2 : points 2 = ![0, b, 0]) (h4 : points 4 = ![0, 0, 1]) :
    Inside 2 points ![0, 2, 4] ![1, 1e-6, 1] := by
  have hn : npNorm 2 ![1, b * 1e-6, 1] = √(2 + 1e-12) := by
    unfold npNorm
    rw [← Real.sqrt_eq_rpow, Fin.sum_univ_three]
    congr 1
    show |(1 : ℝ)| ^ (2 : ℝ) + |b * 1e-6| ^ (2 : ℝ) + |(1 : ℝ)| ^ (2 : ℝ) = _
    rcases hb with rfl | rfl <;> norm_num
  have hpos : (1 : ℝ) < √(2 + 1e-12) := by rw [Real.lt_sqrt (by norm_num)]; norm_num
  refine ⟨![1, b * 1e-6, 1], ?_, by rw [hn]; positivity, fun i => ?_⟩
  · rw [Fin.sum_univ_three]
    have e0 : points ((![0, 2, 4] : Face 6) 0) = ![1, 0, 0] := h0
    have e1 : points ((![0, 2, 4] : Face 6) 1) = ![0, b, 0] := h2
    have e2 : points ((![0, 2, 4] : Face 6) 2) = ![0, 0, 1] := h4
    rw [e0, e1, e2]
    show (1 : ℝ) • ![1, 0, 0] + (b * 1e-6) • ![0, b, 0] + (1 : ℝ) • ![0, 0, 1] = _
    rcases hb with rfl | rfl <;> ext c <;> fin_cases c <;> norm_num
  · rw [hn, gt_iff_lt, lt_div_iff₀ (by linarith)]
    generalize √(2 + 1e-12) = n at hpos
    fin_cases i
    · show -10e-6 * n < 1
      norm_num; linarith
    · show -10e-6 * n < b * 1e-6
      rcases hb with rfl | rfl <;> norm_num <;> linarith
    · show -10e-6 * n < 1
      norm_num; linarith

/-- **C139** fails within the tolerance of VBAP: a source next to the edge of two triangles is rendered by the one listed first, so the gains depend on the numbering
(by about the tolerance, 1e-5). -/
theorem C139_edge_fails (lstsq : Mat3 → Mat3) (hl : LstsqSpec lstsq) : ∃ row row' : Fin 6 → ℝ,
    (vbapHull lstsq 2 [![1, 1e-6, 1]] none Oct.hull).1 = .ok [row] ∧ (vbapHull lstsq 2 [![1, 1e-6, 1]] none octSwap).1 = .ok [row'] ∧
      row' ≠ fun l => row (Equiv.swap 2 3 l) := by
  have first : ∀ (h : Hull 6) (_ : h.valid = Oct.faces) (_ : CacheOk lstsq h) (_ : ∀ f ∈ h.valid, LinearIndependent ℝ fun i => h.points (f i))
      (_ : ∀ l, h.d l = norm3 (h.points l)) (_ : Inside 2 h.points ![0, 2, 4] ![1, 1e-6, 1]), ∃ row, (vbapHull lstsq 2 [![1, 1e-6, 1]] none h).1 = .ok [row] ∧ row 3 = 0 := by
    intro h hv hc hli hd hi
    obtain ⟨row, h1, h2⟩ := C30_first lstsq hl (p := 2) (by norm_num) h hc (hv ▸ Oct.inj) hli hd ![1, 1e-6, 1]
    refine ⟨row, h1, ?_⟩
    rcases h2 with ⟨rfl, -⟩ | ⟨-, k, f, h3, -, h5, h6⟩
    · rfl
    · have hk : k = 0 := by
        by_contra hk
        exact h6 0 ![0, 2, 4] (by omega) (by rw [hv]; rfl) hi
      subst hk
      rw [hv] at h3
      obtain rfl : (![0, 2, 4] : Face 6) = f := Option.some.inj h3
      by_contra h0
      obtain ⟨i, hi⟩ := h5 3 h0
      revert hi
      fin_cases i <;> decide
  obtain ⟨row, h1, h2⟩ := first Oct.hull rfl (oct_cache lstsq) Oct.li (fun l => (Oct.norm_pts l).symm) (near_median 1 (.inl rfl) _ rfl rfl rfl)
  obtain ⟨row', h1', h2'⟩ := first octSwap rfl (octSwap_cache lstsq) octSwap_li octSwap_d (near_median (-1) (.inr rfl) _ rfl (by simp [octSwap, Oct.pts]) rfl)
  refine ⟨row, row', h1, h1', fun he => ?_⟩
  have h3 : row 2 = 0 := by rw [← h2', he]; rfl
  obtain ⟨g, h4, h5⟩ := vbap_one lstsq hl (p := 2) (by norm_num) Oct.hull (oct_cache lstsq) Oct.inj Oct.li (fun l => (Oct.norm_pts l).symm) ![1, 1e-6, 1]
  rw [h1] at h4
  have hg : row = g := by
    rw [(List.cons.inj (Except.ok.inj h4)).1]
    funext l
    show (1 : ℝ) ^ (1 : ℝ) * g l = g l
    rw [one_rpow, one_mul]
  subst hg
  rcases h5 with ⟨-, h6⟩ | ⟨f, hf, -, h7⟩
  · exact h6 ![0, 2, 4] (by show _ ∈ Oct.faces; decide) (near_median 1 (.inl rfl) _ rfl rfl rfl)
  · obtain ⟨c, hc, h8⟩ := h7.direction (Oct.li f hf)
    have := congrFun h8 1
    rw [Fin.sum_univ_six] at this
    simp [Oct.hull, Oct.pts, h2, h3] at this
    rcases this with h | h
    · exact hc.ne' h
    · norm_num at h

/-- The only triangle of the octahedron around a source in front, to the left and above. -/
theorem oct_inside : ∀ f ∈ Oct.faces, Inside 2 Oct.pts f ![1, 2, 3] → f = ![0, 2, 4] := by
  rintro f hf ⟨c, h1, h2, h3⟩
  have hn : npNorm 2 c = √(c 0 ^ 2 + c 1 ^ 2 + c 2 ^ 2) := by
    unfold npNorm
    rw [← Real.sqrt_eq_rpow, Fin.sum_univ_three]
    simp
  have hs : ∀ i, -1 < c i := by
    intro i
    have h4 : c 0 ^ 2 + c 1 ^ 2 + c 2 ^ 2 = 14 := by
      have e0 := congrFun h1 0
      have e1 := congrFun h1 1
      have e2 := congrFun h1 2
      rw [Fin.sum_univ_three] at e0 e1 e2
      simp only [Oct.faces, List.mem_cons, List.not_mem_nil, or_false] at hf
      rcases hf with rfl | rfl | rfl | rfl | rfl | rfl | rfl | rfl <;> simp [Oct.pts] at e0 e1 e2 <;> nlinarith
    have h5 := h3 i
    rw [hn, h4] at h5
    have h6 : √(14 : ℝ) < 4 := by rw [Real.sqrt_lt' (by norm_num)]; norm_num
    have h7 : 0 < √(14 : ℝ) := by positivity
    rw [gt_iff_lt, lt_div_iff₀ h7] at h5
    norm_num at h5
    linarith
  have e0 := congrFun h1 0
  have e1 := congrFun h1 1
  have e2 := congrFun h1 2
  rw [Fin.sum_univ_three] at e0 e1 e2
  have s0 := hs 0
  have s1 := hs 1
  have s2 := hs 2
  simp only [Oct.faces, List.mem_cons, List.not_mem_nil, or_false] at hf
  rcases hf with rfl | rfl | rfl | rfl | rfl | rfl | rfl | rfl
  · rfl
  all_goals exfalso; simp [Oct.pts] at e0 e1 e2; linarith

/-- `C139_vbap`: a source in front, to the left and above the octahedron, with left and right exchanged in the numbering. -/
example : ∃ lstsq : Mat3 → Mat3, LstsqSpec lstsq ∧ ∃ row : Fin 6 → ℝ, (vbapHull lstsq 2 [![1, 2, 3]] none Oct.hull).1 = .ok [row] ∧ 
    (vbapHull lstsq 2 [![1, 2, 3]] none octSwap).1 = .ok [fun l => row (Equiv.swap 2 3 l)] := by
  obtain ⟨lstsq, hl⟩ := exists_lstsq3
  obtain ⟨rows, h1, h2⟩ := C139_vbap lstsq hl (p := 2) (by norm_num) (Equiv.swap 2 3) Oct.hull octSwap (oct_cache lstsq) (octSwap_cache lstsq) (fun _ => rfl) (fun _ => rfl)
    rfl Oct.inj Oct.inj Oct.li (fun l => (Oct.norm_pts l).symm) oct_same [![1, 2, 3]] (by
      intro s hs f₁ hf₁ f₂ hf₂ h1 h2
      obtain rfl := List.mem_singleton.1 hs
      rw [oct_inside f₁ hf₁ h1, oct_inside f₂ hf₂ h2])
  obtain ⟨rows', h3, h4, -⟩ := C30_each lstsq (p := 2) (by norm_num) Oct.hull (oct_cache lstsq) Oct.inj [![1, 2, 3]]
  rw [h1] at h3
  obtain rfl := Except.ok.inj h3
  obtain ⟨row, rfl⟩ := List.length_eq_one_iff.1 h4
  exact ⟨lstsq, hl, row, h1, h2⟩

/-- `C139_setup`, `C139_pop`, `C139_nls`: the octahedron with left and right exchanged in the numbering, a listener off the centre, and loudspeaker 2 (number 3 of the
other setup) blacklisted. -/
example : ∃ h h', mkHull Oct.qhull Oct.pts ![1 / 10, 0, 0] = .ok h ∧ mkHull Oct.qhull (fun l => Oct.pts (Equiv.swap 2 3 l)) ![1 / 10, 0, 0] = .ok h' ∧
    SameTriangles (Equiv.swap 2 3) h.valid h'.valid ∧
    SameTriangles (Equiv.swap 2 3) (popTriangles h none (some 95) (some 80) (some [2])).valid (popTriangles h' none (some 95) (some 80) (some [3])).valid := by
  have hcast : (Oct.rawFaces.map fun f i => Fin.cast rfl (f i)) = Oct.rawFaces := rfl
  have hraw : (∀ f ∈ Oct.rawFaces, ∃ f' ∈ Oct.rawFaces, ∀ l, (∃ i, Equiv.swap 2 3 (f' i) = l) ↔ ∃ i, f i = l) ∧
    ∀ f' ∈ Oct.rawFaces, ∃ f ∈ Oct.rawFaces, ∀ l, (∃ i, Equiv.swap 2 3 (f' i) = l) ↔ ∃ i, f i = l := by decide +kernel
  have hinj : ∀ f ∈ Oct.rawFaces, Function.Injective f := by decide +kernel
  have hdis : Oct.rawFaces.Pairwise fun f g => Set.range f ≠ Set.range g := by
    have hd : Oct.rawFaces.Pairwise fun f g => ¬ ∀ i, ∃ j, g j = f i := by decide +kernel
    refine hd.imp fun {f g} hfg h => hfg fun i => ?_
    have : f i ∈ Set.range g := h ▸ ⟨i, rfl⟩
    exact this
  obtain ⟨h, h', h1, h2, h3, -, -, -, -, h4⟩ := C139_setup Oct.qhull (Equiv.swap 2 3) Oct.pts ![1 / 10, 0, 0] Oct.rawFaces Oct.rawFaces (dif_pos rfl) (dif_pos rfl) hinj hraw
  have hq : ∀ (p : Fin 6 → Vec3) fs, Oct.qhull 6 p = .ok fs → (∀ f ∈ fs, Function.Injective f) ∧ fs.Pairwise fun f g => Set.range f ≠ Set.range g := by
    intro p fs hfs
    have : Oct.qhull 6 p = .ok Oct.rawFaces := dif_pos rfl
    rw [this] at hfs
    obtain rfl := Except.ok.inj hfs
    exact ⟨hinj, hdis⟩
  refine ⟨h, h', h1, h2, h4, ?_⟩
  have := C139_pop (Equiv.swap 2 3) (wellFormed_new _ _ _ h (hq _) h1) (wellFormed_new _ _ _ h' (hq _) h2) h3 h4 none (some 95) (some 80) (.inl rfl) (some [2])
  exact this

example : ∃ g, nearestLoudspeaker Oct.hull ![1, 2, 3] = .ok g ∧ nearestLoudspeaker octSwap ![1, 2, 3] = .ok fun l => g (Equiv.swap 2 3 l) := by
  refine C139_nls (Equiv.swap 2 3) Oct.hull octSwap (fun _ => rfl) (fun _ => rfl) rfl _ ⟨4, fun l hl => ?_⟩
  fin_cases l <;> first | exact absurd rfl hl | (simp [Oct.hull, Oct.pts, dotProduct, Fin.sum_univ_three]; try norm_num)

/-- `C139_decoders`: the corners of a cube, numbered backwards, first order. -/
example (F : Matrix (Fin 4) (Fin 3) ℝ) : ∃ (h h' : Hull 8) (lstsq : Mat3 → Mat3) (pinv : {m n : ℕ} → Matrix (Fin m) (Fin n) ℝ → Matrix (Fin n) (Fin m) ℝ)
    (svd : {m n : ℕ} → Matrix (Fin m) (Fin n) ℝ → Matrix (Fin m) (Fin m) ℝ × Matrix (Fin n) (Fin n) ℝ), (∀ l, h'.points l = h.points (Fin.rev l)) ∧
    mad lstsq pinv F h' (some 1) = (mad lstsq pinv F h (some 1)).map (fun X => X.submatrix Fin.rev id) ∧
    epad lstsq svd F h' (some 1) = (epad lstsq svd F h (some 1)).map (fun X => X.submatrix Fin.rev id) := by
  obtain ⟨azi, zen, hd⟩ := cube_design
  choose P hP using fun (m n : ℕ) (A : Matrix (Fin m) (Fin n) ℝ) => exists_pinv A
  choose U V hUV using fun (m n : ℕ) (A : Matrix (Fin m) (Fin n) ℝ) => exists_svd A
  let h : Hull 8 := {
    points := fun l => dirVec (azi l) (zen l), listener := 0, d := fun _ => 1, a := 1, simplices := [],
    centroids := [], faceAreas := [], faceNormals := [], barycenter := 0, encloses := [], valid := [], invBase := none, charOrder := none }
  have hi : LinearIndependent ℝ (shAt 1 h.points).col := design_rank (design_points hd) (by norm_num)
  obtain ⟨-, h1, h2⟩ := C139_decoders (N := 1) id (fun {m n} A => P m n A) (fun A => hP _ _ A) (fun {m n} A => (U m n A, V m n A)) (fun A => hUV _ _ A) Fin.revPerm h
    { h with points := fun l => h.points (Fin.rev l) } (fun _ => rfl) F
  exact ⟨h, _, id, _, _, fun _ => rfl, h1, h2 (by norm_num) hi⟩

end Verif.Props
