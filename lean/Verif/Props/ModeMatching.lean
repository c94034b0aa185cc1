import Verif.Props.AmbiDecoders
import Verif.Props.SourceScene

/-! What mode matching optimises, and sources at loudspeakers: C161. -/

namespace Verif.Props
open Decoder Sph Matrix Real Parsa

/-- Sum of squares of the entries of column `t`. -/
def colEnergy {m n : ℕ} (A : Matrix (Fin m) (Fin n) ℝ) (t : Fin n) : ℝ := ∑ i, A i t ^ 2

/-- The orthogonal decomposition behind least squares. -/
theorem energy_split {m : ℕ} (a b : Fin m → ℝ) (h : a ⬝ᵥ b = 0) : ∑ i, (a i + b i) ^ 2 = ∑ i, a i ^ 2 + ∑ i, b i ^ 2 := by
  have : ∀ i, (a i + b i) ^ 2 = a i ^ 2 + b i ^ 2 + 2 * (a i * b i) := fun i => by ring
  rw [Finset.sum_congr rfl fun i _ => this i, Finset.sum_add_distrib, Finset.sum_add_distrib, ← Finset.mul_sum]
  change _ + 2 * (a ⬝ᵥ b) = _
  rw [h]; ring

/-- **C161**: of all loudspeaker signals, those of `mad` come closest to the sound field, once encoded at the loudspeaker directions, at every sample; and of all signals that come as close
they are the ones with the least energy.  The sound field is the truncated input times the constant of `C43`. -/
theorem C161_mad_least_squares {L K S : ℕ} (lstsq : Mat3 → Mat3) (pinv : {m n : ℕ} → Matrix (Fin m) (Fin n) ℝ → Matrix (Fin n) (Fin m) ℝ)
    (hpinv : ∀ {m n : ℕ} (A : Matrix (Fin m) (Fin n) ℝ), IsPinv A (pinv A)) (F : Matrix (Fin K) (Fin S) ℝ) (h : Hull L)
    (No : Option ℕ) (N : ℕ) (hN : decodingOrder lstsq h No = .ok N) (hK : (N + 1) ^ 2 ≤ K) :
    ∃ out, mad lstsq pinv F h No = .ok out ∧ ∀ (t : Fin S) (y : Matrix (Fin L) (Fin S) ℝ) (err : Matrix (Fin L) (Fin S) ℝ → ℝ),
      (∀ x, err x = ∑ q : Fin ((N + 1) ^ 2), (srcToSh x (fun l => (dirOf (h.points l)).1) (fun l => (dirOf (h.points l)).2) N q t - √L / (N + 1) * F (Fin.castLE hK q) t) ^ 2) →
      err out ≤ err y ∧ (err y = err out → colEnergy out t ≤ colEnergy y t ∧ (colEnergy y t = colEnergy out t → ∀ l, y l t = out l t)) := by
  obtain ⟨Y, hY⟩ : ∃ Y, Y = shAt N h.points := ⟨_, rfl⟩
  obtain ⟨P, hP⟩ : ∃ P, P = pinv Y := ⟨_, rfl⟩
  have hp : IsPinv Y P := by rw [hP]; exact hpinv Y
  obtain ⟨G, hG⟩ : ∃ G : Matrix (Fin ((N + 1) ^ 2)) (Fin S) ℝ, G = (√L / (N + 1)) • F.submatrix (Fin.castLE hK) id := ⟨_, rfl⟩
  have hk : √((L : ℝ) / ((N : ℝ) + 1) ^ 2) = √L / (N + 1) := by rw [Real.sqrt_div (by positivity), Real.sqrt_sq (by positivity)]
  refine ⟨_, (mad_eq lstsq pinv F h No N hN).trans (applyTruncated_ok _ F hK), fun t y err herr => ?_⟩
  rw [← hY, ← hP, hk, Matrix.smul_mul, ← Matrix.mul_smul, ← hG]
  obtain ⟨g, hg⟩ : ∃ g : Fin ((N + 1) ^ 2) → ℝ, g = fun q => G q t := ⟨_, rfl⟩
  obtain ⟨o, ho⟩ : ∃ o : Fin L → ℝ, o = Pᵀ *ᵥ g := ⟨_, rfl⟩
  have hout : ∀ l, (Pᵀ * G) l t = o l := by intro l; rw [ho, hg]; rfl
  have herr' : ∀ x : Matrix (Fin L) (Fin S) ℝ, err x = ∑ q, ((Yᵀ *ᵥ fun l => x l t) q - g q) ^ 2 := by
    intro x
    rw [herr x]
    refine Finset.sum_congr rfl fun q _ => ?_
    rw [hY, hg, hG]
    rfl
  -- the residual is orthogonal to everything the loudspeakers can do
  have hres : Y *ᵥ (Yᵀ *ᵥ o - g) = 0 := by
    rw [ho, mulVec_sub, mulVec_mulVec, mulVec_mulVec]
    have : Y * (Yᵀ * Pᵀ) = Y := by rw [← transpose_mul, hp.pa, ← Matrix.mul_assoc, hp.apa]
    rw [← Matrix.mul_assoc] at this
    rw [this, sub_self]
  obtain ⟨d, hd⟩ : ∃ d : Fin L → ℝ, d = fun l => y l t - o l := ⟨_, rfl⟩
  have hy : ∀ l, y l t = o l + d l := by intro l; rw [hd]; ring
  have hortho : (Yᵀ *ᵥ o - g) ⬝ᵥ (Yᵀ *ᵥ d) = 0 := by
    rw [dotProduct_mulVec, ← mulVec_transpose, transpose_transpose, hres, zero_dotProduct]
  have hsplit : err y = err (Pᵀ * G) + ∑ q, (Yᵀ *ᵥ d) q ^ 2 := by
    rw [herr', herr']
    have e1 : (fun l => y l t) = o + d := funext hy
    have e2 : (fun l => (Pᵀ * G) l t) = o := funext hout
    rw [e1, e2, mulVec_add]
    have := energy_split _ _ hortho
    refine Eq.trans ?_ this
    exact Finset.sum_congr rfl fun q _ => by simp only [Pi.add_apply, Pi.sub_apply]; ring
  have hnn : 0 ≤ ∑ q, (Yᵀ *ᵥ d) q ^ 2 := Finset.sum_nonneg fun q _ => sq_nonneg _
  refine ⟨by rw [hsplit]; linarith, fun heq => ?_⟩
  have hz : Yᵀ *ᵥ d = 0 := by
    have : ∑ q, (Yᵀ *ᵥ d) q ^ 2 = 0 := by rw [hsplit] at heq; linarith
    rw [Finset.sum_eq_zero_iff_of_nonneg fun q _ => sq_nonneg _] at this
    funext q
    exact pow_eq_zero_iff two_ne_zero |>.1 (this q (Finset.mem_univ _))
  have hPd : P *ᵥ d = 0 := by
    have : P = P * Pᵀ * Yᵀ := by
      rw [Matrix.mul_assoc, ← transpose_mul, hp.ap, ← Matrix.mul_assoc, hp.pap]
    rw [this, ← mulVec_mulVec, hz, mulVec_zero]
  have hod : o ⬝ᵥ d = 0 := by
    rw [ho, dotProduct_comm, dotProduct_mulVec, ← mulVec_transpose, transpose_transpose, hPd, zero_dotProduct]
  have he : colEnergy y t = colEnergy (Pᵀ * G) t + ∑ l, d l ^ 2 := by
    unfold colEnergy
    simp only [hy, hout]
    exact energy_split _ _ hod
  have hdn : 0 ≤ ∑ l, d l ^ 2 := Finset.sum_nonneg fun l _ => sq_nonneg _
  refine ⟨by rw [he]; linarith, fun heq2 l => ?_⟩
  have hd0 : ∑ l, d l ^ 2 = 0 := by rw [he] at heq2; linarith
  rw [Finset.sum_eq_zero_iff_of_nonneg fun q _ => sq_nonneg _] at hd0
  have := pow_eq_zero_iff two_ne_zero |>.1 (hd0 l (Finset.mem_univ _))
  rw [hy, hout, this, add_zero]

/-- **C161**: with at most `N + 1` loudspeakers in different directions `mad` plays a source in the direction of a loudspeaker from that loudspeaker alone, with gain `√L/(N+1)`; so it does
with any more loudspeakers as long as their steering vectors are linearly independent. -/
theorem C161_mad_at_loudspeaker {L S : ℕ} (lstsq : Mat3 → Mat3) (pinv : {m n : ℕ} → Matrix (Fin m) (Fin n) ℝ → Matrix (Fin n) (Fin m) ℝ)
    (hpinv : ∀ {m n : ℕ} (A : Matrix (Fin m) (Fin n) ℝ), IsPinv A (pinv A)) (h : Hull L) (N : ℕ)
    (hL : (L ≤ N + 1 ∧ Function.Injective fun l => dirVec (dirOf (h.points l)).1 (dirOf (h.points l)).2) ∨
      LinearIndependent ℝ fun l => shVec N (dirOf (h.points l)).1 (dirOf (h.points l)).2) (sig : Fin S → ℝ) (l : Fin L) :
    ∃ out, mad lstsq pinv (srcToSh (Matrix.of fun _ : Fin 1 => sig) (fun _ => (dirOf (h.points l)).1) (fun _ => (dirOf (h.points l)).2) N) h (some N) = .ok out ∧
      ∀ l' t, out l' t = if l' = l then √L / (N + 1) * sig t else 0 := by
  have hli : LinearIndependent ℝ fun l => shVec N (dirOf (h.points l)).1 (dirOf (h.points l)).2 := by
    rcases hL with ⟨h1, h2⟩ | h1
    · exact steer_linInd N L h1 _ _ (fun l => dirOf_zenith _) h2
    · exact h1
  obtain ⟨Y, hY⟩ : ∃ Y, Y = shAt N h.points := ⟨_, rfl⟩
  obtain ⟨P, hP⟩ : ∃ P, P = pinv Y := ⟨_, rfl⟩
  have hp : IsPinv Y P := by rw [hP]; exact hpinv Y
  have hrow : LinearIndependent ℝ Yᵀ.col := by rw [hY]; exact hli
  have hYP : Y * P = 1 := by
    have hpt : IsPinv Yᵀ Pᵀ := ⟨by rw [← transpose_mul, ← transpose_mul, ← Matrix.mul_assoc, hp.apa], by rw [← transpose_mul, ← transpose_mul, ← Matrix.mul_assoc, hp.pap],
      by rw [← transpose_mul, hp.pa, hp.pa], by rw [← transpose_mul, hp.ap, hp.ap]⟩
    have := pinv_left hpt hrow
    rw [← transpose_mul] at this
    rw [← transpose_transpose (Y * P), this, transpose_one]
  have hk : √((L : ℝ) / ((N : ℝ) + 1) ^ 2) = √L / (N + 1) := by rw [Real.sqrt_div (by positivity), Real.sqrt_sq (by positivity)]
  refine ⟨_, (mad_eq lstsq pinv _ h (some N) N rfl).trans (applyTruncated_ok _ _ le_rfl), fun l' t => ?_⟩
  rw [← hY, ← hP, hk]
  have hsum : ∑ q, P q l' * Y l q = if l' = l then 1 else 0 := by
    have := congrFun (congrFun hYP l) l'
    rw [mul_apply, one_apply] at this
    simp only [eq_comm (a := l')]
    rw [← this]
    exact Finset.sum_congr rfl fun q _ => mul_comm _ _
  have hF : ∀ q : Fin ((N + 1) ^ 2), (srcToSh (Matrix.of fun _ : Fin 1 => sig) (fun _ => (dirOf (h.points l)).1) (fun _ => (dirOf (h.points l)).2) N) q t = Y l q * sig t := by
    intro q
    unfold srcToSh
    rw [mul_apply, Fin.sum_univ_one, hY]
    rfl
  rw [Matrix.smul_mul, Matrix.smul_apply, mul_apply, smul_eq_mul]
  have e : ∑ q, Pᵀ l' q * ((srcToSh (Matrix.of fun _ : Fin 1 => sig) (fun _ => (dirOf (h.points l)).1) (fun _ => (dirOf (h.points l)).2) N).submatrix (Fin.castLE le_rfl) id) q t
      = (if l' = l then 1 else 0) * sig t := by
    rw [← hsum, Finset.sum_mul]
    refine Finset.sum_congr rfl fun q _ => ?_
    change P q l' * (srcToSh _ _ _ N) q t = _
    rw [hF]; ring
  rw [e]
  split_ifs <;> ring

/-- `C161_mad_least_squares` on the octahedron at order 2, where nine channels are fitted with six loudspeakers. -/
example (F : Matrix (Fin 9) (Fin 3) ℝ) : ∃ (pinv : {m n : ℕ} → Matrix (Fin m) (Fin n) ℝ → Matrix (Fin n) (Fin m) ℝ) (out : _), mad id pinv F Oct.hull (some 2) = .ok out ∧
    ∀ t, ∑ q, (srcToSh out (fun l => (dirOf (Oct.hull.points l)).1) (fun l => (dirOf (Oct.hull.points l)).2) 2 q t - √(6 : ℕ) / ((2 : ℕ) + 1) * F q t) ^ 2 ≤
      ∑ q, (√(6 : ℕ) / ((2 : ℕ) + 1) * F q t) ^ 2 := by
  choose P hP using fun (m n : ℕ) (A : Matrix (Fin m) (Fin n) ℝ) => exists_pinv A
  obtain ⟨out, h1, h2⟩ := C161_mad_least_squares id (fun {m n} A => P m n A) (fun A => hP _ _ A) F Oct.hull (some 2) 2 rfl (by norm_num)
  refine ⟨_, out, h1, fun t => ?_⟩
  refine (h2 t 0 _ (fun x => rfl)).1.trans (le_of_eq ?_)
  refine Finset.sum_congr rfl fun q _ => ?_
  have : srcToSh (0 : Matrix (Fin 6) (Fin 3) ℝ) (fun l => (dirOf (Oct.hull.points l)).1) (fun l => (dirOf (Oct.hull.points l)).2) 2 q t = 0 := by
    unfold srcToSh
    rw [Matrix.mul_zero]; rfl
  rw [this, zero_sub, neg_sq]
  rfl

/-- `C161_mad_at_loudspeaker` on the octahedron at order 5: a source at loudspeaker 3. -/
example (sig : Fin 2 → ℝ) : ∃ (pinv : {m n : ℕ} → Matrix (Fin m) (Fin n) ℝ → Matrix (Fin n) (Fin m) ℝ) (out : _),
    mad id pinv (srcToSh (Matrix.of fun _ : Fin 1 => sig) (fun _ => (dirOf (Oct.hull.points 3)).1) (fun _ => (dirOf (Oct.hull.points 3)).2) 5) Oct.hull (some 5) = .ok out ∧
    ∀ t, out 3 t = √(6 : ℕ) / ((5 : ℕ) + 1) * sig t ∧ out 0 t = 0 := by
  choose P hP using fun (m n : ℕ) (A : Matrix (Fin m) (Fin n) ℝ) => exists_pinv A
  have hinj : Function.Injective fun l => dirVec (dirOf (Oct.hull.points l)).1 (dirOf (Oct.hull.points l)).2 := by
    intro a b hab
    change dirVec (dirOf (Oct.pts a)).1 (dirOf (Oct.pts a)).2 = dirVec (dirOf (Oct.pts b)).1 (dirOf (Oct.pts b)).2 at hab
    rw [dirVec_dirOf _ (Oct.pts_ne a), dirVec_dirOf _ (Oct.pts_ne b), Oct.norm_pts, Oct.norm_pts] at hab
    have h0 := congrFun hab 0
    have h1 := congrFun hab 1
    have h2 := congrFun hab 2
    fin_cases a <;> fin_cases b <;> first
      | rfl
      | (exfalso; norm_num [Oct.pts] at h0; done)
      | (exfalso; norm_num [Oct.pts] at h1; done)
      | (exfalso; change (1 : ℝ) / 1 = -1 / 1 at h2; norm_num at h2; done)
      | (exfalso; change (-1 : ℝ) / 1 = 1 / 1 at h2; norm_num at h2; done)
  obtain ⟨out, h1, h2⟩ := C161_mad_at_loudspeaker id (fun {m n} A => P m n A) (fun A => hP _ _ A) Oct.hull 5 (.inl ⟨by norm_num, hinj⟩) sig 3
  exact ⟨_, out, h1, fun t => ⟨by rw [h2, if_pos rfl], by rw [h2, if_neg (by decide)]⟩⟩

end Verif.Props
