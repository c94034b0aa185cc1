import Verif.Props.Surround
import Verif.Props.AmbiSetup
import Verif.Props.VbapHistory

/-!
C156: with loudspeakers around the listener, everything from the setup to the loudspeaker signals works.
-/

namespace Verif.Props
open Real Verif.Sph Verif.Utils Verif.Decoder

/-- The energy vector is shorter than one as soon as two directions are active. -/
theorem rE_lt_one {Q : ℕ} (p : Fin Q → Fin 3 → ℝ) (hp : ∀ q, ∑ c, p q c ^ 2 = 1) (g : Fin Q → ℝ) (a b : Fin Q) (ha : g a ≠ 0) (hb : g b ≠ 0)
    (hab : p a ≠ p b) : (rE p g).2 < 1 := by
  obtain ⟨v, h1, h2, -⟩ := C26_value p g (fun h => ha (congrFun h a))
  rw [h1]
  show √_ < 1
  rw [Real.sqrt_lt' one_pos, one_pow]
  by_contra hge
  push Not at hge
  have hkey : ∑ q, g q ^ 2 * (1 - ∑ c, v c ^ 2 - ∑ c, (p q c - v c) ^ 2) = 0 := by
    have e : ∀ q, g q ^ 2 * (1 - ∑ c, v c ^ 2 - ∑ c, (p q c - v c) ^ 2) = 2 * ∑ c, v c * (g q ^ 2 * (p q c - v c)) := by
      intro q
      have := hp q
      rw [Fin.sum_univ_three] at this ⊢
      rw [Fin.sum_univ_three, Fin.sum_univ_three]
      linear_combination (-(g q ^ 2)) * this
    rw [Finset.sum_congr rfl fun q _ => e q, ← Finset.mul_sum, Finset.sum_comm]
    have : ∀ c, ∑ q, v c * (g q ^ 2 * (p q c - v c)) = 0 := fun c => by rw [← Finset.mul_sum, h2 c, mul_zero]
    rw [Finset.sum_congr rfl fun c _ => this c]
    simp
  have hnonpos : ∀ q ∈ Finset.univ, g q ^ 2 * (1 - ∑ c, v c ^ 2 - ∑ c, (p q c - v c) ^ 2) ≤ 0 := by
    intro q _
    have : 0 ≤ ∑ c, (p q c - v c) ^ 2 := Finset.sum_nonneg fun _ _ => sq_nonneg _
    exact mul_nonpos_of_nonneg_of_nonpos (sq_nonneg _) (by linarith)
  have hz := (Finset.sum_eq_zero_iff_of_nonpos hnonpos).1 hkey
  have heq : ∀ q, g q ≠ 0 → p q = v := by
    intro q hq
    have h3 := (mul_eq_zero.1 (hz q (Finset.mem_univ q))).resolve_left (pow_ne_zero 2 hq)
    have h4 : 0 ≤ ∑ c, (p q c - v c) ^ 2 := Finset.sum_nonneg fun _ _ => sq_nonneg _
    have h5 : ∑ c, (p q c - v c) ^ 2 = 0 := by linarith
    funext c
    have := (Finset.sum_eq_zero_iff_of_nonneg fun _ _ => sq_nonneg _).1 h5 c (Finset.mem_univ c)
    have := pow_eq_zero_iff (two_ne_zero) |>.1 this
    linarith
  exact hab ((heq a ha).trans (heq b hb).symm)

theorem project_unit (v : Vec3) : ∑ c, projectOnSphere v c ^ 2 = 1 := by
  rw [Fin.sum_univ_three]
  unfold projectOnSphere
  simp only [sph2cart, Matrix.cons_val_zero, Matrix.cons_val_one, Matrix.cons_val]
  nlinarith [Real.sin_sq_add_cos_sq (cart2sph (v 0) (v 1) (v 2) false false).1, Real.sin_sq_add_cos_sq (cart2sph (v 0) (v 1) (v 2) false false).2.1]

theorem norm3_pos_of_ne {v : Vec3} (hv : v ≠ 0) : 0 < norm3 v := by
  unfold norm3
  refine Real.sqrt_pos.2 (lt_of_le_of_ne (Finset.sum_nonneg fun i _ => mul_self_nonneg _) fun h => hv (dotProduct_self_eq_zero.1 h.symm))

/-- **C156** The characteristic order of a new layout with proper faces can be computed, and is at least one, if some face has no loudspeaker in the
direction of its centre. -/
theorem C156_order {L : ℕ} (lstsq : Mat3 → Mat3) (hl : LstsqSpec lstsq) (h : Hull L) (h0 : h.invBase = none) (hn : h.charOrder = none)
    (hli : ∀ f ∈ h.encloses, LinearIndependent ℝ fun i => h.points (f i)) (hd : ∀ l, h.d l = norm3 (h.points l))
    (hc : ∃ c ∈ h.centroids, c ≠ 0 ∧ ∀ (l : Fin L) (t : ℝ), 0 < t → h.points l ≠ t • c) :
    ∃ n, 1 ≤ n ∧ getCharacteristicOrder lstsq h = .ok n := by
  obtain ⟨k, hk⟩ : ∃ k : Hull L, k = { h with points := fun l => projectOnSphere (h.points l), valid := h.encloses } := ⟨_, rfl⟩
  have hkp : k.points = fun l => projectOnSphere (h.points l) := by rw [hk]
  have hkv : k.valid = h.encloses := by rw [hk]
  have hkc : CacheOk lstsq k := by
    intro b hb
    rw [hk] at hb
    change h.invBase = some b at hb
    rw [h0] at hb
    cases hb
  have hproj : ∀ f ∈ h.encloses, ∀ i, projectOnSphere (h.points (f i)) = (1 / norm3 (h.points (f i))) • h.points (f i) := fun f hf i =>
    Oct.projectOnSphere_eq _ ((hli f hf).ne_zero i)
  have hkli : ∀ f ∈ k.valid, LinearIndependent ℝ fun i => k.points (f i) := by
    intro f hf
    rw [hkv] at hf
    have := (hli f hf).units_smul fun i => Units.mk0 (1 / norm3 (h.points (f i))) (by
      have := norm3_pos_of_ne ((hli f hf).ne_zero i)
      positivity)
    convert this using 1
    funext i
    rw [hkp]
    exact hproj f hf i
  have hinj : ∀ f ∈ k.valid, Function.Injective f := fun f hf a b hab => (hkli f hf).injective (by simp only [hab])
  obtain ⟨rows, e1, e2, e3⟩ := C29_vbap lstsq hl (p := 2) (by norm_num) k hkc hinj (h.centroids.map projectOnSphere)
  have hg : (vbapHull lstsq 2 (h.centroids.map projectOnSphere) (some h.encloses) { h with points := fun l => projectOnSphere (h.points l) }).1 = .ok rows := by
    rw [← e1, hk]
    rfl
  obtain ⟨v1, -⟩ := C33_value lstsq h hn rows hg
  -- the spread of every row is between zero and a half turn
  have hm : ∀ g : Fin L → ℝ, 0 ≤ 2 * arccos (rE (fun l => projectOnSphere (h.points l)) g).2 * (180 / π) ∧
      2 * arccos (rE (fun l => projectOnSphere (h.points l)) g).2 * (180 / π) ≤ 180 := by
    intro g
    have h1 : 0 ≤ (rE (fun l => projectOnSphere (h.points l)) g).2 := by
      unfold rE
      simp only
      split
      · exact le_rfl
      · exact Real.sqrt_nonneg _
    have h2 : arccos (rE (fun l => projectOnSphere (h.points l)) g).2 ≤ π / 2 := Real.arccos_le_pi_div_two.2 h1
    refine ⟨by have := Real.arccos_nonneg (rE (fun l => projectOnSphere (h.points l)) g).2; positivity, ?_⟩
    calc _ ≤ 2 * (π / 2) * (180 / π) := by gcongr
      _ = 180 := by field_simp
  obtain ⟨c, hcm, hc0, hcl⟩ := hc
  obtain ⟨j, hj⟩ := List.mem_iff_getElem?.1 hcm
  have hjs : (h.centroids.map projectOnSphere)[j]? = some (projectOnSphere c) := by rw [List.getElem?_map, hj]; rfl
  have hjl : j < rows.length := by rw [e2]; exact (List.getElem?_eq_some_iff.1 hjs).1
  have hpos : 0 < 2 * arccos (rE (fun l => projectOnSphere (h.points l)) rows[j]).2 * (180 / π) := by
    have : (rE (fun l => projectOnSphere (h.points l)) rows[j]).2 < 1 := by
      obtain ⟨g, hrow, hcase⟩ := e3 j _ _ hjs (List.getElem?_eq_getElem hjl)
      rw [hrow]
      rcases hcase with rfl | ⟨f, hf, hR⟩
      · have e : (fun l => k.d l ^ k.a * (0 : Fin L → ℝ) l) = fun _ => 0 := by funext l; simp
        rw [e, C26_zero]
        exact one_pos
      · by_contra hge
        have hgain : ∀ l, g l ≠ 0 → k.d l ^ k.a * g l ≠ 0 := by
          intro l hgl
          obtain ⟨i, rfl⟩ := hR.support l hgl
          rw [hkv] at hf
          have : 0 < k.d (f i) := by
            rw [hk]
            show 0 < h.d (f i)
            rw [hd]
            exact norm3_pos_of_ne ((hli f hf).ne_zero i)
          exact mul_ne_zero (Real.rpow_pos_of_pos this _).ne' hgl
        have hone : ∀ a b, g a ≠ 0 → g b ≠ 0 → a = b := by
          intro a b hga hgb
          by_contra hne
          refine hge (rE_lt_one _ (fun q => project_unit _) _ a b (hgain a hga) (hgain b hgb) fun he => hne ?_)
          obtain ⟨i, rfl⟩ := hR.support a hga
          obtain ⟨i', rfl⟩ := hR.support b hgb
          have := (hkli f hf).injective (a₁ := i) (a₂ := i') (by rw [hkp]; exact he)
          rw [this]
        have hsq := npNorm_two_one hR.norm
        obtain ⟨a, hga⟩ : ∃ a, g a ≠ 0 := by
          by_contra hall
          push Not at hall
          simp [hall] at hsq
        have hz : ∀ b, b ≠ a → g b = 0 := fun b hb => by
          by_contra hgb
          exact hb (hone b a hgb hga)
        rw [Finset.sum_eq_single a (fun b _ hb => by rw [hz b hb]; norm_num) (by simp)] at hsq
        have hga1 : g a = 1 := by
          have h3 := hR.positive a
          have : (g a - 1) * (g a + 1) = 0 := by linear_combination hsq
          rcases mul_eq_zero.1 this with h4 | h4
          · linarith
          · have : g a = -1 := by linarith
            rw [this] at h3
            norm_num at h3
        obtain ⟨t, ht, hdir⟩ := hR.direction (hkli f hf)
        rw [Finset.sum_eq_single a (fun b _ hb => by rw [hz b hb, zero_smul]) (by simp), hga1, one_smul, hkp, Oct.projectOnSphere_eq _ hc0] at hdir
        have hpa : h.points a ≠ 0 := by
          obtain ⟨i, rfl⟩ := hR.support a hga
          rw [hkv] at hf
          exact (hli f hf).ne_zero i
        simp only at hdir
        rw [Oct.projectOnSphere_eq _ hpa] at hdir
        have hna := norm3_pos_of_ne hpa
        have hnc := norm3_pos_of_ne hc0
        refine hcl a (norm3 (h.points a) * (t * (1 / norm3 c))) (by positivity) ?_
        rw [mul_smul, mul_smul, ← hdir, smul_smul, mul_one_div_cancel hna.ne', one_smul]
    have : 0 < arccos (rE (fun l => projectOnSphere (h.points l)) rows[j]).2 := Real.arccos_pos.2 this
    positivity
  have hspread : 0 < meanSpread h rows ∧ meanSpread h rows ≤ 180 := by
    have hlen : (0 : ℝ) < rows.length := by
      have : 0 < rows.length := by omega
      exact_mod_cast this
    unfold meanSpread
    refine ⟨div_pos ?_ hlen, ?_⟩
    · exact lt_of_lt_of_le hpos (List.single_le_sum (fun x hx => by
        obtain ⟨g, -, rfl⟩ := List.mem_map.1 hx
        exact (hm g).1) _ (List.mem_map.2 ⟨rows[j], List.getElem_mem _, rfl⟩))
    · rw [div_le_iff₀ hlen]
      have := List.sum_le_card_nsmul (rows.map fun g => 2 * arccos (rE (fun l => projectOnSphere (h.points l)) g).2 * (180 / π)) 180 (fun x hx => by
        obtain ⟨g, -, rfl⟩ := List.mem_map.1 hx
        exact (hm g).2)
      rw [List.length_map, nsmul_eq_mul] at this
      linarith
  have hq : 0 < 2 * 137.9 / meanSpread h rows - 1.51 := by
    have : 2 * 137.9 / 180 ≤ 2 * 137.9 / meanSpread h rows := div_le_div_of_nonneg_left (by norm_num) hspread.1 hspread.2
    norm_num at this ⊢
    linarith
  obtain ⟨n, hn'⟩ : ∃ n : ℕ, (n : ℤ) = ⌈2 * 137.9 / meanSpread h rows - 1.51⌉ := ⟨_, Int.toNat_of_nonneg (Int.ceil_nonneg hq.le)⟩
  have hn1 : 1 ≤ n := by
    have := Int.ceil_pos.2 hq
    omega
  refine ⟨n, hn1, (v1 n).2 ⟨hn1, hspread.1.ne', ?_, ?_⟩⟩
  · have := Int.ceil_lt_add_one (2 * 137.9 / meanSpread h rows - 1.51)
    rw [← hn'] at this
    push_cast at this
    linarith
  · have := Int.le_ceil (2 * 137.9 / meanSpread h rows - 1.51)
    rw [← hn'] at this
    exact_mod_cast this

/-! ### Sequences of calls -/

/-- A call that renders something on a setup: panning of sources, or decoding of a sound field with `(N+1)**2` channels and `S` samples. -/
inductive RenderCall
  | vbap (p : ℝ) (src : List Vec3)
  | vbip (p : ℝ) (src : List Vec3)
  | allrap {n : ℕ} (src : Fin n → Vec3)
  | allrap2 {n : ℕ} (src : Fin n → Vec3)
  | allrad {K S : ℕ} (F : Matrix (Fin K) (Fin S) ℝ)
  | allrad2 {K S : ℕ} (F : Matrix (Fin K) (Fin S) ℝ)

/-- The call on a setup: the gains of every source, or the samples of every loudspeaker signal, and the setup afterwards. All optional arguments are
left out. -/
noncomputable def RenderCall.run {L : ℕ} (lstsq : Mat3 → Mat3) : RenderCall → Setup L → Py (List (List ℝ)) × Setup L
  | .vbap p src, s => Decoder.vbap lstsq p src none false s
  | .vbip p src, s => Decoder.vbip lstsq p src none false s
  | .allrap src, s => ((Decoder.allrap lstsq src none s).1.map List.ofFn, (Decoder.allrap lstsq src none s).2)
  | .allrap2 src, s => ((Decoder.allrap2 lstsq src none s).1.map List.ofFn, (Decoder.allrap2 lstsq src none s).2)
  | .allrad F, s => ((Decoder.allrad lstsq F none s).1.map fun sig => sig.map List.ofFn, (Decoder.allrad lstsq F none s).2)
  | .allrad2 F, s => ((Decoder.allrad2 lstsq F none s).1.map fun sig => sig.map List.ofFn, (Decoder.allrad2 lstsq F none s).2)

/-- Several calls in a row, up to the first one that raises. -/
noncomputable def RenderCall.runAll {L : ℕ} (lstsq : Mat3 → Mat3) : List RenderCall → Setup L → Py (List (List (List ℝ))) × Setup L
  | [], s => (.ok [], s)
  | c :: cs, s => match c.run lstsq s with
    | (.error e, s') => (.error e, s')
    | (.ok x, s') => ((runAll lstsq cs s').1.map (x :: ·), (runAll lstsq cs s').2)

/-- The call fits a setup of order `N`: the norm is a positive number, the sound field has `(N+1)**2` channels. -/
def RenderCall.Fits (N : ℕ) : RenderCall → Prop
  | .vbap p _ => 0 < p
  | .vbip _ _ => True
  | .allrap _ => True
  | .allrap2 _ => True
  | .allrad (K := K) _ => K = (N + 1) ^ 2
  | .allrad2 (K := K) _ => K = (N + 1) ^ 2

/-- The shape of the result on `L` loudspeakers: one row of `L` gains per source, or `L` signals with as many samples as the sound field. -/
def RenderCall.Shape (L : ℕ) : RenderCall → List (List ℝ) → Prop
  | .vbap _ src, x => x.length = src.length ∧ ∀ r ∈ x, r.length = L
  | .vbip _ src, x => x.length = src.length ∧ ∀ r ∈ x, r.length = L
  | .allrap (n := n) _, x => x.length = n ∧ ∀ r ∈ x, r.length = L
  | .allrap2 (n := n) _, x => x.length = n ∧ ∀ r ∈ x, r.length = L
  | .allrad (S := S) _, x => x.length = L ∧ ∀ r ∈ x, r.length = S
  | .allrad2 (S := S) _, x => x.length = L ∧ ∀ r ∈ x, r.length = S

/-- The layout `base` after `ambisonics_setup()` completed without imaginary loudspeakers, up to stored inverses, which are as they should be. -/
structure Ready {L : ℕ} (lstsq : Mat3 → Mat3) (base hull : Hull L) (k : Kernel) (s : Setup L) : Prop where
  base : ∃ b, s.toHull = { base with invBase := b } ∧ CacheOk lstsq { base with invBase := b }
  ambi : ∃ b, s.ambi = some ⟨0, { hull with invBase := b }, none⟩ ∧ CacheOk lstsq { hull with invBase := b }
  kernel : s.kernel = some k

theorem vbapHull_cache {L : ℕ} (lstsq : Mat3 → Mat3) (p : ℝ) (src : List Vec3) {h : Hull L} (hc : CacheOk lstsq h) :
    vbapHull lstsq p src none h = ((vbapHull lstsq p src none { h with invBase := none }).1, { h with invBase := some (invertTriplets lstsq h.valid h.points) }) := by
  have hc' : CacheOk lstsq { h with invBase := none } := fun b hb => by cases hb
  have h1 := vbase_ok hc
  have h2 := vbase_ok hc'
  unfold vbapHull
  simp only [Option.getD_none] at h2 ⊢
  rw [h1, h2]

theorem cache_again {L : ℕ} (lstsq : Mat3 → Mat3) (h : Hull L) : CacheOk lstsq { h with invBase := some (invertTriplets lstsq h.valid h.points) } := by
  intro b hb
  exact (Option.some.inj hb).symm

/-- Every call on a prepared setup succeeds, with a result that does not depend on the stored inverses, and leaves the setup prepared. -/
theorem ready_step {L N : ℕ} (lstsq : Mat3 → Mat3) (base hull : Hull L) (k : Kernel) (hN : base.charOrder = some N) (hb : ∀ f ∈ base.valid, Function.Injective f)
    (hh : ∀ f ∈ hull.valid, Function.Injective f) (c : RenderCall) (hc : c.Fits N) :
    ∃ x, c.Shape L x ∧ ∀ s, Ready lstsq base hull k s → ∃ s', c.run lstsq s = (.ok x, s') ∧ Ready lstsq base hull k s' := by
  have hn : ∀ h : Hull L, CacheOk lstsq { h with invBase := none } := fun h b hb => by cases hb
  -- the kernel gains
  obtain ⟨krows, r1, -, -⟩ := vbapHull_each (L := L) lstsq { hull with invBase := none } (hn hull) hh (List.ofFn k.points)
  obtain ⟨Gk, hGk⟩ : ∃ Gk : Matrix (Fin k.J) (Fin L) ℝ, Gk = Matrix.of fun (j : Fin k.J) (l : Fin L) => (krows.getD j 0) l := ⟨_, rfl⟩
  have hgains : ∀ b, CacheOk lstsq { hull with invBase := b } → kernelGains lstsq (⟨0, { hull with invBase := b }, none⟩ : Ambi L) k
      = (.ok Gk, ⟨0, { hull with invBase := some (invertTriplets lstsq hull.valid hull.points) }, none⟩) := by
    intro b hcb
    unfold kernelGains
    show (((vbapHull (L := L) lstsq 2 (List.ofFn k.points) none { hull with invBase := b }).1).map _,
      (⟨0, (vbapHull (L := L) lstsq 2 (List.ofFn k.points) none { hull with invBase := b }).2, none⟩ : Ambi L)) = _
    rw [vbapHull_cache (L := L) lstsq 2 (List.ofFn k.points) hcb, hGk]
    simp only
    rw [r1]
    rfl
  have hidx : ∀ h : Hull L, (realIdx (⟨0, h, none⟩ : Ambi L)) = List.finRange L := fun h => rfl
  have hord : ∀ s, Ready lstsq base hull k s → OrderOf s none N := by
    intro s hr
    obtain ⟨b, e, -⟩ := hr.base
    exact .inr ⟨rfl, by rw [e]; exact hN⟩
  have hvbap : ∀ p : ℝ, 0 < p → ∀ src : List Vec3, ∃ x : List (List ℝ), (x.length = src.length ∧ ∀ r ∈ x, r.length = L) ∧
      ∀ s, Ready lstsq base hull k s → ∃ s', Decoder.vbap lstsq p src none false s = (.ok x, s') ∧ Ready lstsq base hull k s' := by
    intro p hp src
    obtain ⟨rows, e1, e2, -⟩ := C30_each lstsq hp { base with invBase := none } (hn base) hb src
    refine ⟨rows.map List.ofFn, ⟨by rw [List.length_map, e2], fun r hr' => ?_⟩, fun s hr => ?_⟩
    · obtain ⟨g, -, rfl⟩ := List.mem_map.1 hr'
      simp
    · obtain ⟨b, e, hcb⟩ := hr.base
      refine ⟨{ s with toHull := { base with invBase := some (invertTriplets lstsq base.valid base.points) } }, ?_, ⟨_, rfl, cache_again lstsq base⟩, hr.ambi, hr.kernel⟩
      unfold Decoder.vbap
      simp only [Bool.false_eq_true, if_false]
      rw [e, vbapHull_cache lstsq p src hcb]
      simp only
      rw [e1]
      rfl
  have hrap2 : ∀ (No : Option ℕ) {n : ℕ} (src : Fin n → Vec3), ∃ G : Fin n → List ℝ, (∀ i, (G i).length = L) ∧ ∀ s, Ready lstsq base hull k s → OrderOf s No N →
      ∃ s', Decoder.allrap2 lstsq src No s = (.ok G, s') ∧ Ready lstsq base hull k s' := by
    intro No n src
    refine ⟨fun i => (List.finRange L).map fun l => √(4 * π / k.J * ∑ j, (shAt N (fun i => normalizeSrc (src i)) * Matrix.diagonal (taper2 N) * (shAt N k.points).transpose) i j ^ 2 * Gk j l ^ 2),
      fun i => by simp, fun s hr hNo => ?_⟩
    obtain ⟨b, e, hcb⟩ := hr.ambi
    unfold Decoder.allrap2
    rw [prologue_ok e hr.kernel hNo]
    simp only
    rw [hgains b hcb]
    exact ⟨_, rfl, hr.base, ⟨_, rfl, cache_again lstsq hull⟩, hr.kernel⟩
  cases c with
  | vbap p src => exact hvbap p hc src
  | vbip p src =>
    obtain ⟨x, ⟨e1, e2⟩, e3⟩ := hvbap 2 (by norm_num) src
    refine ⟨x.map (vbipRow p), ⟨by rw [List.length_map, e1], fun r hr => ?_⟩, fun s hr => ?_⟩
    · obtain ⟨r', hr', rfl⟩ := List.mem_map.1 hr
      rw [← e2 r' hr']
      unfold vbipRow
      dsimp only
      split_ifs <;> simp
    · obtain ⟨s', e4, e5⟩ := e3 s hr
      exact ⟨s', by simp only [RenderCall.run, Decoder.vbip, e4]; rfl, e5⟩
  | @allrap m src =>
    refine ⟨List.ofFn fun i => (List.finRange L).map fun l => ((4 * π / k.J) • (shAt N (fun i => normalizeSrc (src i)) * Matrix.diagonal (taper N) * (shAt N k.points).transpose * Gk)) i l,
      ⟨by simp, fun r hr => ?_⟩, fun s hr => ?_⟩
    · obtain ⟨i, rfl⟩ := (List.mem_ofFn' _ _).1 hr
      simp
    · obtain ⟨b, e, hcb⟩ := hr.ambi
      simp only [RenderCall.run]
      rw [allrap_eq lstsq src e hr.kernel (hord s hr), hgains b hcb]
      exact ⟨_, rfl, hr.base, ⟨_, rfl, cache_again lstsq hull⟩, hr.kernel⟩
  | @allrap2 m src =>
    obtain ⟨G, e1, e2⟩ := hrap2 none src
    refine ⟨List.ofFn G, ⟨by simp, fun r hr => ?_⟩, fun s hr => ?_⟩
    · obtain ⟨i, rfl⟩ := (List.mem_ofFn' _ _).1 hr
      exact e1 i
    · obtain ⟨s', e3, e4⟩ := e2 s hr (hord s hr)
      exact ⟨s', by simp only [RenderCall.run, e3]; rfl, e4⟩
  | @allrad K S F =>
    have hc' : K = (N + 1) ^ 2 := hc
    clear hc
    subst hc'
    refine ⟨(List.finRange L).map fun l => List.ofFn ((((4 * π / k.J) • (Gk.transpose * shAt N k.points)) * Matrix.diagonal (taper N) * F) l),
      ⟨by simp, fun r hr => ?_⟩, fun s hr => ?_⟩
    · obtain ⟨l, -, rfl⟩ := List.mem_map.1 hr
      simp
    · obtain ⟨b, e, hcb⟩ := hr.ambi
      refine ⟨{ s with ambi := some ⟨0, { hull with invBase := some (invertTriplets lstsq hull.valid hull.points) }, none⟩ }, ?_, hr.base, ⟨_, rfl, cache_again lstsq hull⟩, hr.kernel⟩
      simp only [RenderCall.run]
      rw [allrad_eq lstsq e hr.kernel (hord s hr) F, hgains b hcb]
      refine Prod.ext ?_ rfl
      show Except.ok (List.map List.ofFn (List.map _ (List.finRange L))) = _
      rw [List.map_map]
      rfl
  | @allrad2 K S F =>
    have hc' : K = (N + 1) ^ 2 := hc
    clear hc
    subst hc'
    obtain ⟨G, e1, e2⟩ := hrap2 (some N) k.points
    refine ⟨(List.finRange L).map fun l => List.ofFn (((4 * π / k.J) • ((Matrix.of fun (j : Fin k.J) (l : Fin L) => (G j).getD l 0).transpose * shAt N k.points) * F) l),
      ⟨by simp, fun r hr => ?_⟩, fun s hr => ?_⟩
    · obtain ⟨l, -, rfl⟩ := List.mem_map.1 hr
      simp
    · obtain ⟨b, e, hcb⟩ := hr.ambi
      obtain ⟨s', e3, e4⟩ := e2 s hr (.inl rfl)
      refine ⟨s', ?_, e4⟩
      simp only [RenderCall.run]
      unfold Decoder.allrad2
      rw [prologue_ok e hr.kernel (hord s hr)]
      dsimp only
      rw [if_neg (not_not.2 (C11_order_square N).symm), e3]
      refine Prod.ext ?_ rfl
      show Except.map _ ((applyDecoder _ F).bind _) = _
      rw [applyDecoder_ok]
      obtain ⟨n, hn'⟩ : ∃ n, n = (realIdx (⟨0, { hull with invBase := b }, none⟩ : Ambi L)).length := ⟨_, rfl⟩
      have hnL : n = L := by rw [hn', hidx]; simp
      show Except.ok (List.map List.ofFn (List.map _ (List.finRange (realIdx (⟨0, { hull with invBase := b }, none⟩ : Ambi L)).length))) = _
      rw [List.map_map]
      rw [← hn']
      subst hnL
      rfl

/-- A layout around the listener: the loudspeakers surround the listener, who is no farther from their mean than the centres of the faces. -/
structure Around {L : ℕ} (qhull : (L : ℕ) → (Fin L → Vec3) → Py (List (Face L))) (points : Fin L → Vec3) (listener : Vec3) (h : Hull L) : Prop where
  pos : 0 < L
  made : mkHull qhull points listener = .ok h
  convex : ∀ faces, qhull L (fun l => points l - listener) = .ok faces → IsConvexHull (fun l => points l - listener) faces
  inside : listener ∈ interior (convexHull ℝ (Set.range points))
  central : ∀ f ∈ h.simplices, norm3 (listener - meanPoint points) ≤ norm3 (faceCentre points f - meanPoint points)

/-- What a new setup contains. -/
theorem mkHull_fields {L : ℕ} (qhull : (L : ℕ) → (Fin L → Vec3) → Py (List (Face L))) (points : Fin L → Vec3) (listener : Vec3) (h : Hull L)
    (hh : mkHull qhull points listener = .ok h) : h.encloses = h.valid ∧ h.charOrder = none ∧ h.invBase = none ∧ (h.points = fun l => points l - listener) ∧
      mkHull qhull h.points 0 = .ok h := by
  have h1 : ∀ pts : Fin L → Vec3, (fun l => pts l - (0 : Vec3)) = pts := fun pts => funext fun l => sub_zero _
  unfold mkHull at hh
  simp only at hh
  cases hf : qhull L fun l => points l - listener with
  | error e => rw [hf] at hh; cases hh
  | ok faces =>
    rw [hf] at hh
    obtain rfl := Except.ok.inj hh
    refine ⟨rfl, rfl, rfl, rfl, ?_⟩
    unfold mkHull
    simp only [h1, sub_zero]
    rw [hf]
    rfl

/-- Without imaginary loudspeakers the Ambisonic hull is the hull of the layout, all faces included. -/
theorem mkAmbi_plain {L : ℕ} (qhull : (L : ℕ) → (Fin L → Vec3) → Py (List (Face L))) (points : Fin L → Vec3) (listener : Vec3) (h : Hull L)
    (hh : mkHull qhull points listener = .ok h) (h' : Hull L) (hp : h'.points = h.points) : mkAmbi qhull h' none = .ok ⟨0, h, none⟩ := by
  obtain ⟨-, -, -, -, h5⟩ := mkHull_fields qhull points listener h hh
  unfold mkAmbi
  have e : (Fin.append h'.points fun i : Fin ((none : Option (List Vec3)).getD []).length => ((none : Option (List Vec3)).getD [])[i]) = h.points := by
    rw [hp]
    funext l
    exact Fin.append_left h.points _ l
  show (mkHull qhull (Fin.append _ _) 0).bind _ = _
  rw [e, show mkHull qhull (L := L + (Option.getD (none : Option (List Vec3)) []).length) h.points 0 = _ from h5]
  rfl

theorem runAll_ready {L N : ℕ} (lstsq : Mat3 → Mat3) (base hull : Hull L) (k : Kernel) (out : RenderCall → List (List ℝ))
    (ho : ∀ c : RenderCall, c.Fits N → ∀ s, Ready lstsq base hull k s → ∃ s', c.run lstsq s = (.ok (out c), s') ∧ Ready lstsq base hull k s') :
    ∀ (calls : List RenderCall), (∀ c ∈ calls, c.Fits N) → ∀ s, Ready lstsq base hull k s →
      ∃ s', RenderCall.runAll lstsq calls s = (.ok (calls.map out), s') ∧ Ready lstsq base hull k s'
  | [], _, s, hs => ⟨s, rfl, hs⟩
  | c :: cs, hc, s, hs => by
    obtain ⟨s1, e1, h1⟩ := ho c (hc c (by simp)) s hs
    obtain ⟨s2, e2, h2⟩ := runAll_ready lstsq base hull k out ho cs (fun c' h' => hc c' (by simp [h'])) s1 h1
    refine ⟨s2, ?_, h2⟩
    unfold RenderCall.runAll
    rw [e1]
    simp only
    rw [e2]
    rfl

/-- **C156.** Loudspeakers around the listener: `ambisonics_setup(update_hull=False)` completes (with a characteristic order of at least one when none is
given and some face centre has no loudspeaker in its direction), and from then on every call of `vbap`, `vbip`, `allrap`, `allrap2`, `allrad` and `allrad2`
that fits the order, in any sequence, succeeds with a result of the expected shape, which does not depend on the calls made before it. After any such sequence
`vbap` plays every source from its own direction. -/
theorem C156_pipeline {L : ℕ} (qhull : (L : ℕ) → (Fin L → Vec3) → Py (List (Face L))) (points : Fin L → Vec3) (listener : Vec3) (h : Hull L)
    (ha : Around qhull points listener h) (lstsq : Mat3 → Mat3) (hl : LstsqSpec lstsq) (ndesign : ℤ → Option (List Vec3)) (nk : ℤ) (vs : List Vec3) (x : List ℤ)
    (kf : List (Face vs.length)) (hload : Grids.loadNDesign ndesign (2 * nk) = .ok (vs, x)) (hkf : qhull vs.length (fun i => vs[i]) = .ok kf)
    (im : Option (List Vec3)) (co : Option ℕ)
    (hco : co = none → ∃ c ∈ h.centroids, c ≠ 0 ∧ ∀ (l : Fin L) (t : ℝ), 0 < t → h.points l ≠ t • c) :
    ∃ (N : ℕ) (s : Setup L), ambisonicsSetup qhull lstsq ndesign ⟨h, none, none⟩ false im co (some nk) = (.ok (), s) ∧ (∀ n, co = some n → N = n) ∧
      (co = none → 1 ≤ N) ∧ s.charOrder = some N ∧
      ∃ out : RenderCall → List (List ℝ), (∀ c : RenderCall, c.Fits N → c.Shape L (out c)) ∧
        (∀ calls : List RenderCall, (∀ c ∈ calls, c.Fits N) → (RenderCall.runAll lstsq calls s).1 = .ok (calls.map out)) ∧
        ∀ (p : ℝ) (src : List Vec3), 0 < p → (∀ v ∈ src, v ≠ 0) → ∀ (i : ℕ) (v : Vec3), src[i]? = some v → ∃ g : Fin L → ℝ,
          (out (.vbap p src))[i]? = some (List.ofFn fun l => h.d l ^ h.a * g l) ∧ npNorm p g = 1 ∧ (∀ l, g l > -10e-6) ∧
            ∃ c : ℝ, 0 < c ∧ ∑ l, g l • (points l - listener) = c • v := by
  obtain ⟨hch, hin, hib, hd⟩ := surround_faces ha.pos qhull points listener ha.convex ha.inside h ha.made ha.central
  obtain ⟨f1, f2, f3, f4, f5⟩ := mkHull_fields qhull points listener h ha.made
  have hli : ∀ f ∈ h.valid, LinearIndependent ℝ fun i => h.points (f i) := fun f hf => hull_li hch hin f hf
  have hinj : ∀ f ∈ h.valid, Function.Injective f := by
    intro f hf i j hij
    exact (hli f hf).injective (congrArg h.points hij)
  obtain ⟨N, hN, hN1, hN2⟩ : ∃ N, setupOrder lstsq h co = .ok N ∧ (∀ n, co = some n → N = n) ∧ (co = none → 1 ≤ N) := by
    cases co with
    | some n => exact ⟨n, rfl, fun m hm => Option.some.inj hm, fun h => (nomatch h)⟩
    | none =>
      obtain ⟨n, hn1, hn2⟩ := C156_order lstsq hl h hib f2 (by rw [f1]; exact hli) hd (hco rfl)
      exact ⟨n, hn2, fun m hm => (nomatch hm), fun _ => hn1⟩
  obtain ⟨base, hbase⟩ : ∃ base : Hull L, base = { h with charOrder := some N } := ⟨_, rfl⟩
  obtain ⟨k, hk⟩ : ∃ k : Kernel, k = ⟨vs.length, fun i => vs[i], nk⟩ := ⟨_, rfl⟩
  have hset := setupHulls_ok qhull ndesign base false im nk rfl (mkAmbi_plain qhull points listener h ha.made base (by rw [hbase])) hload hkf
  obtain ⟨s, hs⟩ : ∃ s : Setup L, s = ⟨base, some ⟨0, h, none⟩, some k⟩ := ⟨_, rfl⟩
  have hrun : ambisonicsSetup qhull lstsq ndesign ⟨h, none, none⟩ false im co (some nk) = (.ok (), s) := by
    unfold ambisonicsSetup
    simp only
    rw [hN]
    simp only
    rw [← hbase, hset, hs, hk]
  have hcn : ∀ g : Hull L, g.invBase = none → CacheOk lstsq g := fun g hg b hb => by rw [hg] at hb; cases hb
  have hbn : base.invBase = none := by rw [hbase]; exact hib
  have hready : Ready lstsq base h k s := by
    refine ⟨⟨none, ?_, ?_⟩, ⟨none, ?_, ?_⟩, by rw [hs]⟩
    · rw [hs]; simp only; rw [← hbn]
    · exact hcn _ rfl
    · rw [hs]; simp only; rw [← hib]; rfl
    · exact hcn _ rfl
  have hstep := ready_step (N := N) lstsq base h k (by rw [hbase]) (by rw [hbase]; exact hinj) hinj
  classical
  obtain ⟨out, hout⟩ : ∃ out : RenderCall → List (List ℝ), ∀ c : RenderCall, c.Fits N → c.Shape L (out c) ∧
      ∀ s, Ready lstsq base h k s → ∃ s', c.run lstsq s = (.ok (out c), s') ∧ Ready lstsq base h k s' := by
    refine ⟨fun c => if hc : c.Fits N then (hstep c hc).choose else [], fun c hc => ?_⟩
    simp only [dif_pos hc]
    exact (hstep c hc).choose_spec
  refine ⟨N, s, hrun, hN1, hN2, by rw [hs]; show base.charOrder = _; rw [hbase], out, fun c hc => (hout c hc).1, fun calls hcs => ?_, fun p src hp hsrc i v hv => ?_⟩
  · obtain ⟨s', e, -⟩ := runAll_ready lstsq base h k out (fun c hc => (hout c hc).2) calls hcs s hready
    rw [e]
  · obtain ⟨s', e, -⟩ := (hout (.vbap p src) hp).2 s hready
    obtain ⟨rows, r1, r2, r3⟩ := C154_everywhere ha.pos qhull points listener ha.convex ha.inside h ha.made ha.central lstsq hl hp src hsrc
    have hv1 : (vbapHull lstsq p src none base).1 = .ok rows := by
      rw [hbase, ← r1]
      rfl
    have he : out (.vbap p src) = rows.map List.ofFn := by
      simp only [RenderCall.run, Decoder.vbap, Bool.false_eq_true, if_false] at e
      rw [hs] at e
      simp only at e
      rw [hv1] at e
      exact (Except.ok.inj (congrArg Prod.fst e)).symm
    have hi : i < rows.length := by rw [r2]; exact (List.getElem?_eq_some_iff.1 hv).1
    obtain ⟨g, g1, g2, g3, g4⟩ := r3 i v rows[i] hv (List.getElem?_eq_getElem hi)
    refine ⟨g, ?_, g2, g3, g4⟩
    rw [he, List.getElem?_map, List.getElem?_eq_getElem hi, g1]
    rfl

theorem oct_around : Around Oct.qhull Oct.pts 0 Oct.hull := by
  refine ⟨by norm_num, Oct.mkHull_eq, fun faces hf => ?_, oct_interior 0 (by simp), fun f _ => ?_⟩
  · rw [Oct.sub_zero_pts] at hf ⊢
    have : faces = Oct.rawFaces := by
      unfold Oct.qhull at hf
      rw [dif_pos rfl] at hf
      rw [← Except.ok.inj hf]
      exact List.map_id _
    rw [this]
    exact oct_isHull
  · have : meanPoint Oct.pts = 0 := by
      unfold meanPoint
      rw [Fin.sum_univ_six]
      ext c
      fin_cases c <;> simp [Oct.pts]
    rw [this, sub_zero]
    have : norm3 (0 : Vec3) = 0 := by simp [norm3]
    rw [this]
    exact Real.sqrt_nonneg _

/-- The octahedron, the order left to the layout: a decoding, a panning and another decoding. -/
example : ∃ (lstsq : Mat3 → Mat3) (N : ℕ) (s : Setup 6) (out : RenderCall → List (List ℝ)),
    ambisonicsSetup Oct.qhull lstsq (fun _ => some (List.ofFn Oct.pts)) ⟨Oct.hull, none, none⟩ false none none (some 1) = (.ok (), s) ∧ 1 ≤ N ∧
      ∀ F : Matrix (Fin ((N + 1) ^ 2)) (Fin 3) ℝ, (RenderCall.runAll lstsq [.allrad2 F, .vbap 2 [![1, 2, 3]], .allrad F, .allrad2 F] s).1
        = .ok [out (.allrad2 F), out (.vbap 2 [![1, 2, 3]]), out (.allrad F), out (.allrad2 F)] ∧ (out (.allrad F)).length = 6 := by
  obtain ⟨lstsq, hl⟩ := exists_lstsq3
  have hload : Grids.loadNDesign (fun _ => some (List.ofFn Oct.pts)) (2 * 1) = .ok (List.ofFn Oct.pts, []) := by
    unfold Grids.loadNDesign Grids.loadNext
    simp
  obtain ⟨f, hq⟩ : ∃ f, Oct.qhull (List.ofFn Oct.pts).length (fun i => (List.ofFn Oct.pts)[i]) = .ok f :=
    ⟨_, dif_pos (by simp)⟩
  obtain ⟨N, s, h1, -, h3, -, out, h4, h5, -⟩ := C156_pipeline Oct.qhull Oct.pts 0 Oct.hull oct_around lstsq hl _ 1 _ [] f hload hq none none (fun _ => by
    have hc : centroid Oct.pts ![0, 2, 4] = ![1 / 3, 1 / 3, 1 / 3] := by
      ext i
      fin_cases i <;> simp [centroid, Oct.pts, Fin.sum_univ_three]
    refine ⟨_, List.mem_map.2 ⟨![0, 2, 4], by simp [Oct.faces], rfl⟩, ?_, fun l t ht he => ?_⟩
    · rw [hc]
      intro h0
      have := congrFun h0 0
      norm_num at this
    · rw [hc] at he
      change Oct.pts l = _ at he
      have a0 := congrFun he 0
      have a1 := congrFun he 1
      fin_cases l <;> simp [Oct.pts] at a0 a1 <;> linarith)
  refine ⟨lstsq, N, s, out, h1, h3 rfl, fun F => ⟨h5 _ (by simp [RenderCall.Fits]), (h4 (.allrad F) rfl).1⟩⟩

end Verif.Props
