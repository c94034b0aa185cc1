import Verif.Props.Arriving
import Verif.Props.SphDesigns

/-! VBIP plays the energy vector in the direction of the source: C167. -/

namespace Verif.Props
open Decoder Utils Sph Matrix Real

/-- A source taken by a face within the tolerance lies in its cone. -/
def CleanlyInside {L : ℕ} (h : Hull L) (s : Vec3) : Prop :=
  ∀ f ∈ h.valid, Inside 2 h.points f s → ∃ b : Vec3, (∀ i, 0 ≤ b i) ∧ ∑ i, b i • h.points (f i) = s

theorem sum_face {L : ℕ} (f : Face L) (hf : Function.Injective f) (g : Fin L → ℝ) (hs : ∀ l, g l ≠ 0 → ∃ i, f i = l) (v : Fin L → Vec3) :
    ∑ l, g l • v l = ∑ i, g (f i) • v (f i) := by
  classical
  rw [← Finset.sum_image (s := Finset.univ) (g := f) (f := fun l => g l • v l) fun x _ y _ e => hf e]
  refine (Finset.sum_subset (Finset.subset_univ _) fun l _ hl => ?_).symm
  have : g l = 0 := by
    by_contra h0
    obtain ⟨i, rfl⟩ := hs l h0
    exact hl (Finset.mem_image_of_mem f (Finset.mem_univ i))
  rw [this, zero_smul]

/-- **C167**: the energy vector of the loudspeaker signals of `vbip`, seen from the listener, points at the source, whatever the norm and the distances; sources in no triangle get no gain. -/
theorem C167_energy_vector {L : ℕ} (lstsq : Mat3 → Mat3) (hl : LstsqSpec lstsq) {p : ℝ} (hp : 0 < p)
    (qhull : (L : ℕ) → (Fin L → Vec3) → Py (List (Face L))) (points : Fin L → Vec3) (listener : Vec3) (h : Hull L) (hh : mkHull qhull points listener = .ok h) (hne : ∀ l, points l ≠ listener)
    (hinj : ∀ f ∈ h.valid, Function.Injective f) (hli : ∀ f ∈ h.valid, LinearIndependent ℝ fun i => h.points (f i)) (s : Vec3) (hc : CleanlyInside h s) :
    ∃ g : Fin L → ℝ, (vbip lstsq p [s] none false { h with ambi := none, kernel := none }).1 = .ok [List.ofFn g] ∧ (∀ l, 0 ≤ g l) ∧
      ((g = 0 ∧ ∀ f ∈ h.valid, ¬ Inside 2 h.points f s) ∨
        (npNorm p g = 1 ∧ ∃ (v : Vec3) (k : ℝ), rE (dirTo points listener) g = (some v, norm3 v) ∧ v = k • s ∧ 0 < k ∧ norm3 v ≤ 1)) := by
  obtain ⟨m1, m2, m3, m4, m5⟩ := made_fields hh
  have hpos : ∀ l, 0 < distTo points listener l := fun l => norm3_pos (sub_ne_zero.2 (hne l))
  obtain ⟨row, arr, h1, -, h2, h3⟩ := C166_arriving_partial lstsq hl (p := 2) two_pos qhull points listener h hh hne hinj hli s
  have hvb : (vbap lstsq 2 [s] none false { h with ambi := none, kernel := none }).1 = .ok [List.ofFn row] := by
    unfold vbap
    simp only [Bool.false_eq_true, if_false]
    rw [h1]; rfl
  have hout := (C34_vbip lstsq p [s] none false { h with ambi := none, kernel := none }).2 _ hvb
  obtain ⟨r1, r2, r3, -, c, hc0, r5⟩ := C34_row hp (List.ofFn row)
  obtain ⟨G, hG⟩ : ∃ G, G = vbipRow p (List.ofFn row) := ⟨_, rfl⟩
  rw [← hG] at r1 r2 r3
  simp only [← hG] at r5
  have hlen : G.length = L := by rw [r1, List.length_ofFn]
  have hg2 : ∀ l : Fin L, (G.get (Fin.cast hlen.symm l)) ^ 2 = c * max (row l) 0 := by
    intro l
    have := r5 l (by rw [hlen]; exact l.2) (by rw [List.length_ofFn]; exact l.2)
    rw [List.getElem_ofFn] at this
    rw [← this]
    rfl
  obtain ⟨g, hg⟩ : ∃ g : Fin L → ℝ, g = fun l => G.get (Fin.cast hlen.symm l) := ⟨_, rfl⟩
  have hofn : List.ofFn g = G := by
    rw [hg]
    apply List.ext_getElem
    · rw [List.length_ofFn, hlen]
    · intro i _ _; simp
  have hgn : ∀ l, 0 ≤ g l := fun l => by rw [hg]; exact r2 _ (List.get_mem _ _)
  refine ⟨g, by rw [hout, hofn, hG]; rfl, hgn, ?_⟩
  rcases h3 with ⟨h0, h3⟩ | ⟨hn1, -, ⟨k, hk, h3⟩, -⟩
  · left
    refine ⟨funext fun l => ?_, h3⟩
    have := hg2 l
    rw [h0, Pi.zero_apply, max_self, mul_zero] at this
    rw [hg]
    exact pow_eq_zero_iff two_ne_zero |>.1 this
  · right
    by_cases hz : row = 0
    · exfalso
      have : arr = 0 := funext fun l => by rw [h2, hz]; simp
      rw [(npNorm_eq_zero two_pos arr).2 this] at hn1
      exact zero_ne_one hn1
    have hrn : ∀ l, 0 ≤ row l := by
      have hcache : CacheOk lstsq h := by intro b hb; rw [m4] at hb; cases hb
      obtain ⟨row', e1, e2⟩ := C30_first lstsq hl two_pos h hcache hinj hli (fun l => by rw [m5, m1]; rfl) s
      rw [h1] at e1
      obtain rfl : row = row' := by simpa using e1
      rcases e2 with ⟨e2, -⟩ | ⟨-, j, f, e3, e4, e5, -⟩
      · exact absurd e2 hz
      have hf := List.mem_of_getElem? e3
      obtain ⟨b, hb, hbs⟩ := hc f hf e4
      have hd : ∑ i, (row (f i) * (distTo points listener (f i))⁻¹) • h.points (f i) = ∑ i, (k * b i) • h.points (f i) := by
        rw [sum_face f (hinj f hf) row e5] at h3
        rw [← hbs, Finset.smul_sum] at h3
        simp only [dirTo, smul_smul] at h3
        rw [m1] at h3 ⊢
        exact h3
      have hco : ∀ i, row (f i) * (distTo points listener (f i))⁻¹ = k * b i := by
        intro i
        have hli' := Fintype.linearIndependent_iff.1 (hli f hf) (fun i => row (f i) * (distTo points listener (f i))⁻¹ - k * b i) (by
          simp only [sub_smul, Finset.sum_sub_distrib]
          rw [hd, sub_self]) i
        linarith
      intro l
      by_cases hl0 : row l = 0
      · exact hl0.ge
      obtain ⟨i, rfl⟩ := e5 l hl0
      have h5 : row (f i) = k * b i * distTo points listener (f i) := by
        rw [← hco i, mul_assoc, inv_mul_cancel₀ (hpos _).ne', mul_one]
      rw [h5]
      exact mul_nonneg (mul_nonneg hk.le (hb i)) (hpos _).le
    have hsq : ∀ l, g l ^ 2 = c * row l := by
      intro l; rw [hg]; refine (hg2 l).trans ?_; rw [max_eq_left (hrn l)]
    obtain ⟨l0, hl0⟩ : ∃ l, row l ≠ 0 := by
      by_contra hcon; push Not at hcon; exact hz (funext hcon)
    have hgl0 : g l0 ≠ 0 := by
      intro h0
      have := hsq l0
      rw [h0] at this
      rcases mul_eq_zero.1 (this.symm.trans (by norm_num)) with h | h
      · exact hc0.ne' h
      · exact hl0 h
    have hE : 0 < ∑ q, g q ^ 2 := Finset.sum_pos' (fun _ _ => sq_nonneg _) ⟨l0, Finset.mem_univ _, by positivity⟩
    refine ⟨?_, (1 / (∑ q, g q ^ 2) * (c * k)) • s, 1 / (∑ q, g q ^ 2) * (c * k), ?_, rfl, by positivity, ?_⟩
    · rcases r3 with r3 | r3
      · rw [← r3]
        unfold npNorm
        congr 1
        refine Fintype.sum_equiv (finCongr hlen.symm) _ _ fun i => ?_
        rw [hg]; rfl
      · exfalso
        refine hgl0 ?_
        rw [hg]
        exact r3 _ (List.get_mem _ _)
    all_goals
      have hv : (fun x => 1 / (∑ q, g q ^ 2) * ∑ q, g q ^ 2 * dirTo points listener q x) = (1 / (∑ q, g q ^ 2) * (c * k)) • s := by
        funext x
        have h6 := congrFun h3 x
        simp only [Finset.sum_apply, Pi.smul_apply, smul_eq_mul] at h6 ⊢
        have h9 : ∑ q, g q ^ 2 * dirTo points listener q x = c * (k * s x) := by
          rw [← h6, Finset.mul_sum]
          exact Finset.sum_congr rfl fun q _ => by rw [hsq, mul_assoc]
        rw [h9]; ring
      have hr : rE (dirTo points listener) g = (some ((1 / (∑ q, g q ^ 2) * (c * k)) • s), norm3 ((1 / (∑ q, g q ^ 2) * (c * k)) • s)) := by
        unfold rE
        simp only [if_neg hE.ne', hv]
        congr 1
        unfold norm3
        congr 1
        simp only [dotProduct]
        exact Finset.sum_congr rfl fun x _ => by ring
    · exact hr
    · have := C26_le_one (dirTo points listener) (fun q => by
        have h7 := norm3_pos (sub_ne_zero.2 (hne q))
        unfold dirTo distTo
        simp only [Pi.smul_apply, smul_eq_mul, mul_pow]
        rw [← Finset.mul_sum]
        have h8 : ∑ i, (points q - listener) i ^ 2 = norm3 (points q - listener) ^ 2 := by
          unfold norm3
          rw [Real.sq_sqrt (by simp only [dotProduct]; exact Finset.sum_nonneg fun i _ => mul_self_nonneg _)]
          simp only [dotProduct]
          exact Finset.sum_congr rfl fun x _ => by ring
        rw [h8]
        field_simp) g
      rw [hr] at this
      exact this

theorem far_ne (l : Fin 6) : farPts l ≠ 0 := by
  intro h0
  have e0 := congrFun h0 0
  have e1 := congrFun h0 1
  have e2 := congrFun h0 2
  fin_cases l <;> simp [farPts] at e0 e1 e2

theorem far_clean {h : Hull 6} (hp : h.points = farPts) (hv : h.valid = Oct.faces) : CleanlyInside h ![1, 1, 1] := by
  intro f hf ⟨c, hc, hn, hpos⟩
  refine ⟨c, ?_, hc⟩
  rw [hp] at hc
  rw [hv] at hf
  have hn0 : 0 < npNorm 2 c := lt_of_le_of_ne (npNorm_nonneg _ _) (Ne.symm hn)
  have hsq : ∀ i, |c i| ≤ 1 := by
    have e0 := congrFun hc 0
    have e1 := congrFun hc 1
    have e2 := congrFun hc 2
    intro i
    rw [abs_le]
    simp only [Oct.faces, List.mem_cons, List.not_mem_nil, or_false] at hf
    rcases hf with rfl | rfl | rfl | rfl | rfl | rfl | rfl | rfl <;> simp [Fin.sum_univ_three, farPts] at e0 e1 e2 <;> fin_cases i <;> constructor <;> simp <;> linarith
  have hn2 : npNorm 2 c ≤ 2 := by
    unfold npNorm
    have h3 : ∑ i, |c i| ^ (2 : ℝ) ≤ 4 := by
      have h4 : ∀ i, |c i| ^ (2 : ℝ) ≤ 1 := fun i => Real.rpow_le_one (abs_nonneg _) (hsq i) (by norm_num)
      rw [Fin.sum_univ_three]
      linarith [h4 0, h4 1, h4 2]
    refine (Real.rpow_le_rpow (Finset.sum_nonneg fun i _ => Real.rpow_nonneg (abs_nonneg _) _) h3 (by norm_num)).trans ?_
    rw [← Real.sqrt_eq_rpow, show (4 : ℝ) = 2 ^ 2 by norm_num, Real.sqrt_sq (by norm_num)]
  have hlow : ∀ i, c i > -1 / 4 := by
    intro i
    have := hpos i
    rw [gt_iff_lt, lt_div_iff₀ hn0] at this
    nlinarith
  have e0 := congrFun hc 0
  have e1 := congrFun hc 1
  have e2 := congrFun hc 2
  have l0 := hlow 0
  have l1 := hlow 1
  have l2 := hlow 2
  intro i
  simp only [Oct.faces, List.mem_cons, List.not_mem_nil, or_false] at hf
  rcases hf with rfl | rfl | rfl | rfl | rfl | rfl | rfl | rfl <;> simp [Fin.sum_univ_three, farPts] at e0 e1 e2 <;> fin_cases i <;> simp <;> linarith

/-- A source in the middle of the front, left and top loudspeakers, the front one twice as far away: unlike what arrives from `vbap` (`C166_distances_fail`), the energy vector of `vbip` points at it. -/
example (lstsq : Mat3 → Mat3) (hl : LstsqSpec lstsq) : ∃ (h : Hull 6) (g : Fin 6 → ℝ) (v : Vec3) (k : ℝ), mkHull Oct.qhull farPts 0 = .ok h ∧ (vbip lstsq 2 [![1, 1, 1]] none false { h with ambi := none, kernel := none }).1 = .ok [List.ofFn g] ∧
    rE (dirTo farPts 0) g = (some v, norm3 v) ∧ v = k • ![1, 1, 1] ∧ 0 < k := by
  obtain ⟨h, hh, hv⟩ := far_made
  obtain ⟨m1, -⟩ := made_fields hh
  have m1' : h.points = farPts := by rw [m1]; funext l; simp
  obtain ⟨g, h1, -, h2⟩ := C167_energy_vector lstsq hl two_pos Oct.qhull farPts 0 h hh far_ne (by rw [hv]; exact Oct.inj) (by rw [hv, m1']; exact far_li) ![1, 1, 1] (far_clean m1' hv)
  rcases h2 with ⟨-, h3⟩ | ⟨-, v, k, h3, h4, h5, -⟩
  · refine absurd ?_ (h3 ![0, 2, 4] (by rw [hv]; decide))
    have hn : 0 < npNorm 2 (![1 / 2, 1, 1] : Vec3) := lt_of_le_of_ne (npNorm_nonneg _ _) fun h0 => by
      have := congrFun ((npNorm_eq_zero two_pos _).1 h0.symm) 1
      simp at this
    refine ⟨![1 / 2, 1, 1], ?_, hn.ne', fun i => ?_⟩
    · rw [m1', Fin.sum_univ_three]; funext c; fin_cases c <;> simp [farPts]
    · refine lt_of_lt_of_le (by norm_num) (div_nonneg ?_ hn.le)
      fin_cases i <;> simp
  · exact ⟨h, g, v, k, hh, h1, h3, h4, h5⟩

end Verif.Props
