import Verif.Model.Sector
import Verif.Proofs.PyList
import Verif.Props.SphDesigns
import Verif.Props.ShFormats

/-!
C87: sector pressure and intensity beamformers (`parsa.sh_sector_beamformer`).
-/

namespace Verif.Props
open Real Verif.Sph Verif.Parsa

/-- Specification: the pressure pattern and the three velocity patterns in a direction. -/
noncomputable def wxyz (azi zen : ℝ) : Fin 4 → ℝ := ![1, dirVec azi zen 0, dirVec azi zen 1, dirVec azi zen 2]

theorem pattern_eval (c : Fin 4) (p : Fin 4 → ℝ) (hp : firstOrderPatterns[(c : ℕ)]? = some p) (azi zen : ℝ) (hz : zen ∈ Set.Icc 0 π) :
    ∑ q : Fin ((1 + 1) ^ 2), p (Fin.castLE (by norm_num) q) * shVec 1 azi zen q = wxyz azi zen c := by
  obtain ⟨h0, h1, h2, h3⟩ := shVec_first azi zen hz
  have hs : ∑ q : Fin ((1 + 1) ^ 2), p (Fin.castLE (by norm_num) q) * shVec 1 azi zen q
      = p 0 * shVec 1 azi zen (0 : Fin 4) + p 1 * shVec 1 azi zen (1 : Fin 4) + p 2 * shVec 1 azi zen (2 : Fin 4) + p 3 * shVec 1 azi zen (3 : Fin 4) :=
    Fin.sum_univ_four (f := fun q : Fin 4 => p q * shVec 1 azi zen q)
  rw [hs, h0, h1, h2, h3]
  have hq : √(4 * π) ≠ 0 := by positivity
  have hr : √(4 / 3 * π) = √(4 * π) / √3 := by
    rw [← Real.sqrt_div (by positivity)]; congr 1; ring
  have h3 : √3 ≠ 0 := by positivity
  fin_cases c <;> simp only [firstOrderPatterns, List.getElem?_cons_zero, List.getElem?_cons_succ, Option.some.injEq] at hp <;> subst hp <;>
    simp [wxyz, dirVec, hr] <;> field_simp

theorem sqrt_cols (N : ℕ) : (pyInt (√(((N + 1) ^ 2 : ℕ) : ℝ) + 1)).toNat ^ 2 = (N + 2) ^ 2 := by
  have h1 : √(((N + 1) ^ 2 : ℕ) : ℝ) = (N : ℝ) + 1 := by
    push_cast; exact Real.sqrt_sq (by positivity)
  have h2 : (N : ℝ) + 1 + 1 = ((N + 2 : ℕ) : ℝ) := by push_cast; ring
  rw [h1, h2]
  unfold pyInt
  rw [if_pos (by positivity), Int.floor_natCast, Int.toNat_natCast]

theorem sector_mult (design : ℕ → Σ Q : ℕ, (Fin Q → ℝ) × (Fin Q → ℝ)) {N : ℕ} (hN : N ≤ 9)
    (hd : IsTDesign (2 * (N + 1)) (design (2 * (N + 1))).2.1 (design (2 * (N + 1))).2.2) (a : Fin ((N + 1) ^ 2) → ℝ) (p : Fin 4 → ℝ) :
    ∃ c : Fin ((N + 2) ^ 2) → ℝ, sectorRow design ((N + 2) ^ 2) a p = .ok (List.ofFn c) ∧ ∀ azi zen : ℝ,
      ∑ q, c q * shVec (N + 1) azi zen q
        = (∑ q : Fin ((1 + 1) ^ 2), p (Fin.castLE (by norm_num) q) * shVec 1 azi zen q) * ∑ q, a q * shVec N azi zen q := by
  have e : 1 + N = N + 1 := by omega
  have hd' : IsTDesign (2 * (1 + N)) (design (2 * (1 + N))).2.1 (design (2 * (1 + N))).2.2 := by rw [e]; exact hd
  obtain ⟨c, h1, h2⟩ := C25_product (N1 := 1) (N2 := N) design p a (by norm_num) (by norm_num) le_rfl (by nlinarith) (by omega) (by omega) hd'
  have key : ∀ (M : ℕ) (hM : M = N + 1) (c : Fin ((M + 1) ^ 2) → ℝ), shMult design p a = .ok ⟨_, c⟩ →
      (∀ azi zen : ℝ, ∑ q, c q * shVec M azi zen q
        = (∑ q : Fin ((1 + 1) ^ 2), p (Fin.castLE (by norm_num) q) * shVec 1 azi zen q) * ∑ q, a q * shVec N azi zen q) →
      ∃ c : Fin ((N + 2) ^ 2) → ℝ, sectorRow design ((N + 2) ^ 2) a p = .ok (List.ofFn c) ∧ ∀ azi zen : ℝ,
      ∑ q, c q * shVec (N + 1) azi zen q
        = (∑ q : Fin ((1 + 1) ^ 2), p (Fin.castLE (by norm_num) q) * shVec 1 azi zen q) * ∑ q, a q * shVec N azi zen q := by
    rintro M rfl c h1 h2
    refine ⟨c, ?_, h2⟩
    unfold sectorRow
    rw [h1]
    exact if_pos rfl
  exact key (1 + N) e c h1 fun azi zen => by rw [h2]; rfl

theorem flatten_get {α : Type _} (n : ℕ) : ∀ (L : List (List α)), (∀ l ∈ L, l.length = n) → ∀ i j : ℕ, j < n →
    L.flatten[n * i + j]? = (L[i]?).bind fun l => l[j]?
  | [], _, i, j, _ => by simp
  | l :: L, h, 0, j, hj => by
    have hl := h l (by simp)
    rw [List.flatten_cons, mul_zero, zero_add, List.getElem?_append_left (by omega)]; rfl
  | l :: L, h, i + 1, j, hj => by
    have hl := h l (by simp)
    rw [List.flatten_cons, List.getElem?_append_right (by rw [hl]; nlinarith), List.getElem?_cons_succ,
      ← flatten_get n L (fun l hl => h l (by simp [hl])) i j hj, hl]
    congr 1
    have : n * (i + 1) = n * i + n := by ring
    omega

/-- C87: row `4 s + c` is the beam of sector `s` times the omnidirectional pattern (`c = 0`) or the `x`, `y`, `z` coordinate of the direction: for
every plane wave, from every direction, its output is that multiple of the output of the sector's own beam. -/
theorem C87_sectors (design : ℕ → Σ Q : ℕ, (Fin Q → ℝ) × (Fin Q → ℝ)) {J N : ℕ} (hN : N ≤ 9)
    (hd : IsTDesign (2 * (N + 1)) (design (2 * (N + 1))).2.1 (design (2 * (N + 1))).2.2) (A : Matrix (Fin J) (Fin ((N + 1) ^ 2)) ℝ) :
    ∃ rows, sectorBeamformer design A = .ok rows ∧ rows.length = 4 * J ∧ ∀ (s : Fin J) (c : Fin 4), ∃ b : Fin ((N + 2) ^ 2) → ℝ,
      rows[4 * (s : ℕ) + c]? = some (List.ofFn b) ∧ ∀ azi, ∀ zen ∈ Set.Icc 0 π,
        ∑ q, b q * shVec (N + 1) azi zen q = wxyz azi zen c * ∑ q, A s q * shVec N azi zen q := by
  choose b hb1 hb2 using fun (s : Fin J) (p : Fin 4 → ℝ) => sector_mult design hN hd (A s) p
  have h1 : ∀ s : Fin J, firstOrderPatterns.mapM (sectorRow design ((N + 2) ^ 2) (A s)) = .ok (firstOrderPatterns.map fun p => List.ofFn (b s p)) :=
    fun s => mapM_ok_of _ _ _ (by simp) fun i p y hp hy => by
      rw [List.getElem?_map, hp] at hy
      rw [hb1 s p, ← Option.some.inj hy]
  have h2 : (List.finRange J).mapM (fun s => firstOrderPatterns.mapM (sectorRow design ((N + 2) ^ 2) (A s)))
      = .ok ((List.finRange J).map fun s => firstOrderPatterns.map fun p => List.ofFn (b s p)) :=
    mapM_ok_of _ _ _ (by simp) fun i s y hs hy => by
      rw [List.getElem?_map, hs] at hy
      rw [h1 s, ← Option.some.inj hy]
  refine ⟨_, by unfold sectorBeamformer; rw [sqrt_cols]; unfold sectorRows; rw [h2]; rfl, ?_, fun s c => ?_⟩
  · rw [List.length_flatten, List.map_map]
    have : (List.length ∘ fun s : Fin J => firstOrderPatterns.map fun p => List.ofFn (b s p)) = fun _ => 4 := by
      funext s; simp [firstOrderPatterns]
    rw [this]
    simp [mul_comm]
  · obtain ⟨p, hp⟩ : ∃ p, firstOrderPatterns[(c : ℕ)]? = some p := by
      fin_cases c <;> exact ⟨_, rfl⟩
    refine ⟨b s p, ?_, fun azi zen hz => by rw [hb2, pattern_eval c p hp azi zen hz]⟩
    rw [flatten_get 4 _ (fun l hl => by
      obtain ⟨t, _, rfl⟩ := List.mem_map.1 hl
      simp [firstOrderPatterns]) s c c.2, List.getElem?_map]
    have : (List.finRange J)[(s : ℕ)]? = some s := by
      rw [List.getElem?_eq_getElem (by simp), List.getElem_finRange]; rfl
    rw [this]
    show (firstOrderPatterns.map fun p => List.ofFn (b s p))[(c : ℕ)]? = _
    rw [List.getElem?_map, hp]; rfl

/-- C87: beams of order ten and more raise `ValueError` (there is no design of the degree needed), unless there are no sectors. -/
theorem C87_high_order (design : ℕ → Σ Q : ℕ, (Fin Q → ℝ) × (Fin Q → ℝ)) {J N : ℕ} (hN : 10 ≤ N) (A : Matrix (Fin (J + 1)) (Fin ((N + 1) ^ 2)) ℝ) :
    sectorBeamformer design A = .error .valueError := by
  have h : ∀ p : Fin 4 → ℝ, shMult design p (A 0) = .error .valueError := fun p =>
    C25_errors (N1 := 1) (N2 := N) design p (A 0) (by norm_num) (by norm_num) le_rfl (by nlinarith) (.inr (by omega))
  unfold sectorBeamformer sectorRows
  rw [List.finRange_succ, List.mapM_cons, firstOrderPatterns, List.mapM_cons]
  unfold sectorRow
  rw [h]
  rfl

/-- The hypotheses are met by the cube, for sectors of order zero. -/
example : ∃ (azi zen : Fin 8 → ℝ) (rows : List (List ℝ)), sectorBeamformer (fun _ => ⟨8, azi, zen⟩) (fun (_ : Fin 2) (_ : Fin ((0 + 1) ^ 2)) => (1 : ℝ)) = .ok rows
    ∧ rows.length = 4 * 2 := by
  obtain ⟨azi, zen, hd⟩ := cube_design
  have hd2 : IsTDesign (2 * (0 + 1)) azi zen := ⟨hd.pos, hd.zenith, fun p hp => hd.exact p (by omega)⟩
  obtain ⟨rows, h1, h2, _⟩ := C87_sectors (N := 0) (fun _ => ⟨8, azi, zen⟩) (by norm_num) hd2 (fun (_ : Fin 2) (_ : Fin ((0 + 1) ^ 2)) => (1 : ℝ))
  exact ⟨azi, zen, rows, h1, h2⟩

end Verif.Props
