import Mathlib.Tactic
import Mathlib.Data.List.GetD
import Verif.Model.IoLayout
import Verif.Props.Coordinates
import Verif.Props.FilterTable
import Verif.Props.ProcessSignals
import Verif.Props.AmbiPanning

/-!
C76 (layout files), C83 (layouts and listener positions).
-/

namespace Verif.Props

open Verif.Io Verif.Utils Verif.Decoder Verif.Process Real

/-! ### Rounding -/

theorem round2_near (x : ℝ) : |round2 x - x| ≤ 0.005 := by
  have h := npRound_near (100 * x)
  unfold round2
  rw [abs_le]
  constructor <;> linarith [h.1, h.2]

theorem round2_int (z : ℤ) : round2 z = z := by
  have : npRound (100 * (z : ℝ)) = 100 * z := by
    apply npRound_of <;> push_cast <;> linarith
  unfold round2; rw [this]; push_cast; field_simp

/-- Halfway cases are rounded to the even integer. -/
theorem npRound_half (z : ℤ) : npRound (z + 1 / 2) = if z % 2 = 0 then z else z + 1 := by
  have hf : ⌊(z : ℝ) + 1 / 2⌋ = z := by rw [Int.floor_eq_iff]; constructor <;> linarith
  unfold npRound
  rw [hf, if_neg (by linarith), if_neg (by linarith)]

/-- **C76**: a value halfway between two hundredths is written as the one whose last digit is even. -/
theorem C76_halfway (z : ℤ) : ∃ w : ℤ, round2 ((z + 1 / 2) / 100) = w / 100 ∧ w % 2 = 0 ∧ (w = z ∨ w = z + 1) := by
  refine ⟨if z % 2 = 0 then z else z + 1, ?_, ?_, ?_⟩
  · unfold round2
    rw [show (100 : ℝ) * ((z + 1 / 2) / 100) = z + 1 / 2 by ring, npRound_half]
  · split_ifs <;> omega
  · split_ifs <;> simp

/-- The radii 1.125 and 1.375 are written as 1.12 and 1.38. -/
example : round2 1.125 = 1.12 ∧ round2 1.375 = 1.38 := by
  have a := npRound_half 112
  have b := npRound_half 137
  constructor
  · unfold round2; rw [show (100 : ℝ) * 1.125 = ((112 : ℤ) : ℝ) + 1 / 2 by norm_num, a]; norm_num
  · unfold round2; rw [show (100 : ℝ) * 1.375 = ((137 : ℤ) : ℝ) + 1 / 2 by norm_num, b]; norm_num

theorem deg2rad_trig (d : ℝ) : cos (deg2rad d) = cos (d * (π / 180)) ∧ sin (deg2rad d) = sin (d * (π / 180)) := by
  obtain ⟨k, hk⟩ := exists_pyMod d 360
  have : deg2rad d = d * (π / 180) + k * (2 * π) := by unfold deg2rad; rw [hk]; ring
  rw [this, cos_add_int_mul_two_pi, sin_add_int_mul_two_pi]; exact ⟨rfl, rfl⟩

/-- The position written to and read from a file differs from the true one by the rounding only. -/
theorem place_near (v : Vec3) (hv : v ≠ 0) (c : Fin 3) :
    let p := cart2sph (v 0) (v 1) (v 2) false false
    |place (round2 (rad2deg p.1)) (round2 (90 - rad2deg p.2.1)) (round2 p.2.2) c - v c| ≤ 0.005 + norm3 v * (0.01 * (π / 180)) := by
  intro p
  have h0 : (v 0, v 1, v 2) ≠ (0, 0, 0) := by
    intro h
    simp only [Prod.mk.injEq] at h
    exact hv (by funext c; match c with | 0 => exact h.1 | 1 => exact h.2.1 | 2 => exact h.2.2)
  have hp := C01_sph2cart_cart2sph (v 0) (v 1) (v 2) false false h0 (by simp)
  have hz := (C01_ranges (v 0) (v 1) (v 2) false).2.2 false
  have hr0 : p.2.2 = norm3 v := by
    show √(v 0 ^ 2 + v 1 ^ 2 + v 2 ^ 2) = _
    unfold norm3 dotProduct
    rw [Fin.sum_univ_three]; congr 1; ring
  change sph2cart p.1 p.2.1 p.2.2 = _ at hp
  change p.2.1 ∈ _ at hz
  set φ := p.1
  set θ := p.2.1
  have hpi := pi_pos
  -- the angles
  have hd : ∀ x δ : ℝ, |δ| ≤ 0.005 → |(x + δ * (π / 180)) - x| ≤ 0.005 * (π / 180) := by
    intro x δ h
    rw [add_sub_cancel_left, abs_mul, abs_of_pos (by positivity : 0 < π / 180)]
    exact mul_le_mul_of_nonneg_right h (by positivity)
  have hazi : |cos (deg2rad (round2 (rad2deg φ))) - cos φ| ≤ 0.005 * (π / 180) ∧ |sin (deg2rad (round2 (rad2deg φ))) - sin φ| ≤ 0.005 * (π / 180) := by
    rw [(deg2rad_trig _).1, (deg2rad_trig _).2]
    obtain ⟨k, hk⟩ := exists_pyMod (φ / π * 180) 360
    set δ := round2 (rad2deg φ) - rad2deg φ with hδ
    have h1 := round2_near (rad2deg φ)
    have e : round2 (rad2deg φ) * (π / 180) = (φ + δ * (π / 180)) + k * (2 * π) := by
      have : round2 (rad2deg φ) = rad2deg φ + δ := by rw [hδ]; ring
      rw [this]
      unfold rad2deg
      rw [hk]; field_simp; ring
    rw [e, cos_add_int_mul_two_pi, sin_add_int_mul_two_pi]
    exact ⟨(abs_cos_sub_cos_le _ _).trans (hd φ δ h1), (abs_sin_sub_sin_le _ _).trans (hd φ δ h1)⟩
  have hzen : |cos (deg2rad (90 - round2 (90 - rad2deg θ))) - cos θ| ≤ 0.005 * (π / 180) ∧
      |sin (deg2rad (90 - round2 (90 - rad2deg θ))) - sin θ| ≤ 0.005 * (π / 180) := by
    rw [(deg2rad_trig _).1, (deg2rad_trig _).2]
    obtain ⟨k, hk⟩ := exists_pyMod (θ / π * 180) 360
    set δ := -(round2 (90 - rad2deg θ) - (90 - rad2deg θ)) with hδ
    have h1 : |δ| ≤ 0.005 := by rw [hδ, abs_neg]; exact round2_near _
    have e : (90 - round2 (90 - rad2deg θ)) * (π / 180) = (θ + δ * (π / 180)) + k * (2 * π) := by
      have : 90 - round2 (90 - rad2deg θ) = rad2deg θ + δ := by rw [hδ]; ring
      rw [this]
      unfold rad2deg
      rw [hk]; field_simp; ring
    rw [e, cos_add_int_mul_two_pi, sin_add_int_mul_two_pi]
    exact ⟨(abs_cos_sub_cos_le _ _).trans (hd θ δ h1), (abs_sin_sub_sin_le _ _).trans (hd θ δ h1)⟩
  have hrad := round2_near p.2.2
  have hrpos : 0 ≤ p.2.2 := by rw [hr0]; exact Real.sqrt_nonneg _
  set ε := 0.005 * (π / 180) with hε
  have hε0 : 0 ≤ ε := by positivity
  -- products
  have key : ∀ r' r u u' : ℝ, |r' - r| ≤ 0.005 → 0 ≤ r → |u'| ≤ 1 → |u' - u| ≤ 2 * ε → |r' * u' - r * u| ≤ 0.005 + r * (2 * ε) := by
    intro r' r u u' h1 h2 h3 h4
    have : r' * u' - r * u = (r' - r) * u' + r * (u' - u) := by ring
    rw [this]
    refine (abs_add_le _ _).trans (add_le_add ?_ ?_)
    · rw [abs_mul]
      calc |r' - r| * |u'| ≤ 0.005 * 1 := mul_le_mul h1 h3 (abs_nonneg _) (by norm_num)
        _ = 0.005 := by norm_num
    · rw [abs_mul, abs_of_nonneg h2]; exact mul_le_mul_of_nonneg_left h4 h2
  have prod : ∀ a b a' b' : ℝ, |a'| ≤ 1 → |b| ≤ 1 → |a' - a| ≤ ε → |b' - b| ≤ ε → |a' * b' - a * b| ≤ 2 * ε := by
    intro a b a' b' h1 h2 h3 h4
    have : a' * b' - a * b = a' * (b' - b) + (a' - a) * b := by ring
    rw [this]
    have h5 : |a' * (b' - b)| ≤ ε := by
      rw [abs_mul]
      calc |a'| * |b' - b| ≤ 1 * ε := mul_le_mul h1 h4 (abs_nonneg _) (by norm_num)
        _ = ε := one_mul _
    have h6 : |(a' - a) * b| ≤ ε := by
      rw [abs_mul]
      calc |a' - a| * |b| ≤ ε * 1 := mul_le_mul h3 h2 (abs_nonneg _) hε0
        _ = ε := mul_one _
    linarith [abs_add_le (a' * (b' - b)) ((a' - a) * b)]
  have hbound : norm3 v * (0.01 * (π / 180)) = p.2.2 * (2 * ε) := by rw [hr0, hε]; ring
  rw [hbound]
  unfold sph2cart at hp
  simp only [Prod.mk.injEq] at hp
  obtain ⟨e1, e2, e3⟩ := hp
  have mul1 : ∀ a b : ℝ, |a| ≤ 1 → |b| ≤ 1 → |a * b| ≤ 1 := fun a b h1 h2 => by
    rw [abs_mul]; exact mul_le_one₀ h1 (abs_nonneg _) h2
  unfold place sph2cart
  match c with
  | 0 =>
    simp only [Matrix.cons_val_zero]
    rw [← e1, mul_assoc, mul_assoc]
    exact key _ _ _ _ hrad hrpos (mul1 _ _ (abs_cos_le_one _) (abs_sin_le_one _)) (prod _ _ _ _ (abs_cos_le_one _) (abs_sin_le_one _) hazi.1 hzen.2)
  | 1 =>
    simp only [Matrix.cons_val_one, Matrix.cons_val_zero]
    rw [← e2, mul_assoc, mul_assoc]
    exact key _ _ _ _ hrad hrpos (mul1 _ _ (abs_sin_le_one _) (abs_sin_le_one _)) (prod _ _ _ _ (abs_sin_le_one _) (abs_sin_le_one _) hazi.2 hzen.2)
  | 2 =>
    simp only [Matrix.cons_val]
    rw [← e3]
    exact key _ _ _ _ hrad hrpos (abs_cos_le_one _) (by linarith [hzen.1])

/-! ### Loading -/

theorem ambisonicsSetup_ok (qhull : (L : ℕ) → (Fin L → Vec3) → Py (List (Face L))) (lstsq : Mat3 → Mat3) (ndesign : ℤ → Option (List Vec3)) {L : ℕ}
    (s : Setup L) (vs : List Vec3) (co : Option ℕ) (nk : Option ℤ) (u : Unit) (h : (ambisonicsSetup qhull lstsq ndesign s true (some vs) co nk).1 = .ok u) :
    (ambisonicsSetup qhull lstsq ndesign s true (some vs) co nk).2.points = s.points ∧
    ∃ hull : Hull (L + vs.length), (ambisonicsSetup qhull lstsq ndesign s true (some vs) co nk).2.ambi =
        some ⟨vs.length, hull, some ((List.finRange vs.length).map (Fin.natAdd L))⟩ ∧
      hull.points = Fin.append s.points fun i : Fin vs.length => vs[i] := by
  revert h
  unfold ambisonicsSetup
  rcases setupOrder lstsq s.toHull co with e | n
  · intro h; cases h
  dsimp only
  rcases nk with _ | nk
  · intro h; cases h
  dsimp only
  rcases hh : setupHulls qhull ndesign { s.toHull with charOrder := some n } true (some vs) nk with e | ⟨am, k⟩
  · intro h; cases h
  · intro _
    refine ⟨rfl, ?_⟩
    unfold setupHulls at hh
    change (mkAmbi qhull _ (some vs)).bind _ = _ at hh
    rcases ha : mkAmbi qhull ({ s.toHull with charOrder := some n } : Hull L) (some vs) with e | am'
    · rw [ha] at hh; cases hh
    rw [ha] at hh
    change (Grids.loadNDesign ndesign (2 * nk)).bind _ = _ at hh
    rcases hd : Grids.loadNDesign ndesign (2 * nk) with e | d
    · rw [hd] at hh; cases hh
    rw [hd] at hh
    change (qhull _ _).bind _ = _ at hh
    rcases hq : qhull d.1.length (fun i => d.1[i]) with e | fs
    · rw [hq] at hh; cases hh
    rw [hq] at hh
    have heq : am' = am := by
      change Except.ok _ = Except.ok _ at hh
      have := Except.ok.inj hh
      exact congrArg Prod.fst this
    rw [← heq]
    unfold mkAmbi at ha
    change (mkHull qhull (Fin.append _ fun i : Fin vs.length => vs[i]) 0).bind _ = _ at ha
    rcases hm : mkHull qhull (Fin.append ({ s.toHull with charOrder := some n } : Hull L).points fun i : Fin vs.length => vs[i]) 0 with e | hull
    · rw [hm] at ha; cases ha
    rw [hm] at ha
    have ha' := Except.ok.inj (show Except.ok _ = Except.ok am' from ha)
    refine ⟨hull, by rw [← ha']; rfl, ?_⟩
    unfold mkHull at hm
    change (qhull _ _).bind _ = _ at hm
    rcases hq2 : qhull (L + vs.length) (fun l => Fin.append ({ s.toHull with charOrder := some n } : Hull L).points (fun i : Fin vs.length => vs[i]) l - 0) with e | fs
    · rw [hq2] at hm; cases hm
    rw [hq2] at hm
    have hm' := Except.ok.inj (show Except.ok _ = Except.ok hull from hm)
    rw [← hm']
    funext l
    show _ - (0 : Vec3) = _
    rw [sub_zero]

theorem mkSetup_points (qhull : (L : ℕ) → (Fin L → Vec3) → Py (List (Face L))) {L : ℕ} (pts : Fin L → Vec3) (lp : Vec3) (s : Setup L)
    (h : mkSetup qhull pts lp = .ok s) : s.points = fun l => pts l - lp := by
  unfold mkSetup at h
  change (mkHull qhull pts lp).bind _ = _ at h
  rcases hm : mkHull qhull pts lp with e | hull
  · rw [hm] at h; cases h
  rw [hm] at h
  have h' := Except.ok.inj (show Except.ok _ = Except.ok s from h)
  unfold mkHull at hm
  change (qhull _ _).bind _ = _ at hm
  rcases hq : qhull L (fun l => pts l - lp) with e | fs
  · rw [hq] at hm; cases hm
  rw [hq] at hm
  have hm' := Except.ok.inj (show Except.ok _ = Except.ok hull from hm)
  rw [← h', ← hm']

/-- What a successful `load_layout` returns. -/
theorem load_ok (qhull : (L : ℕ) → (Fin L → Vec3) → Py (List (Face L))) (lstsq : Mat3 → Mat3) (ndesign : ℤ → Option (List Vec3))
    (ls : List LsEntry) (listener : Option Vec3) (nk : Option ℤ) (azi ele r : List JNum) (ha : field ls LsEntry.azi = .ok azi)
    (he : field ls LsEntry.ele = .ok ele) (hr : field ls LsEntry.r = .ok r) (real imag : List Vec3)
    (hreal : (((places azi ele r).zip (layoutFlags ls)).filter fun x => !x.2).map Prod.fst = real)
    (himag : (((places azi ele r).zip (layoutFlags ls)).filter fun x => x.2).map Prod.fst = imag)
    (lay : Layout) (h : loadLayout qhull lstsq ndesign ls listener nk = .ok lay) :
    ls ≠ [] ∧ lay.gains = layoutGains ls azi ∧ lay.L = real.length ∧
    (∀ (i : ℕ) (hi : i < lay.L), lay.setup.points ⟨i, hi⟩ = real.getD i 0 - listener.getD 0) ∧
    ∃ am, lay.setup.ambi = some am ∧ am.M = imag.length ∧
      (∀ (i : ℕ) (hi : i < lay.L + am.M), am.hull.points ⟨i, hi⟩ = if i < lay.L then real.getD i 0 - listener.getD 0 else imag.getD (i - lay.L) 0) ∧
      ∃ idx, am.imaginary = some idx ∧ ∀ i, i ∈ idx ↔ lay.L ≤ i.val := by
  unfold loadLayout at h
  rw [ha, he, hr] at h
  change (if ls = [] then (Except.error .typeError : Py Layout) else _) = _ at h
  have hls : ls ≠ [] := by rintro hl; rw [if_pos hl] at h; cases h
  rw [if_neg hls] at h
  simp only [hreal, himag] at h
  unfold buildLayout at h
  rcases hs : mkSetup qhull (fun l : Fin real.length => real[l]) (listener.getD 0) with e | s
  · rw [hs] at h; cases h
  rw [hs] at h
  change (ambisonicsSetup qhull lstsq ndesign s true (some imag) none nk).1.map _ = _ at h
  rcases ho : (ambisonicsSetup qhull lstsq ndesign s true (some imag) none nk).1 with e | u
  · rw [ho] at h; cases h
  rw [ho] at h
  have h' := Except.ok.inj (show Except.ok _ = Except.ok lay from h)
  have hp := mkSetup_points qhull _ _ s hs
  obtain ⟨h1, hull, h2, h3⟩ := ambisonicsSetup_ok qhull lstsq ndesign s imag none nk u ho
  rw [← h']
  refine ⟨hls, rfl, rfl, ?_, _, h2, rfl, ?_, _, rfl, ?_⟩
  · intro i hi
    show (ambisonicsSetup qhull lstsq ndesign s true (some imag) none nk).2.points ⟨i, hi⟩ = _
    rw [h1, hp]
    show real[i] - _ = _
    rw [List.getD_eq_getElem _ _ hi]
  · intro i hi
    show hull.points ⟨i, hi⟩ = if i < real.length then _ else imag.getD (i - real.length) 0
    rw [h3]
    change i < real.length + imag.length at hi
    split_ifs with hc
    · have : (⟨i, hi⟩ : Fin (real.length + imag.length)) = Fin.castAdd imag.length ⟨i, hc⟩ := rfl
      rw [this, Fin.append_left, hp]
      show real[i] - _ = _
      rw [List.getD_eq_getElem _ _ hc]
    · have hlt : i - real.length < imag.length := by omega
      have : (⟨i, hi⟩ : Fin (real.length + imag.length)) = Fin.natAdd real.length ⟨i - real.length, hlt⟩ := by
        apply Fin.ext; show i = real.length + (i - real.length); omega
      rw [this, Fin.append_right, List.getD_eq_getElem _ _ hlt]; rfl
  · intro i
    show i ∈ (List.finRange imag.length).map (Fin.natAdd real.length) ↔ real.length ≤ i.val
    rw [List.mem_map]
    constructor
    · rintro ⟨j, _, rfl⟩; simp
    · intro hi
      have hi2 : (i : ℕ) < real.length + imag.length := i.2
      exact ⟨⟨i - real.length, by omega⟩, List.mem_finRange _, by apply Fin.ext; show real.length + (i - real.length) = i.val; omega⟩

/-! ### C76, loading -/

/-- A loudspeaker in a layout file: angles in degrees. -/
structure Ls where
  azi : JNum
  ele : JNum
  r : JNum
  gain : JNum
  imag : Bool

/-- The JSON object with all keys. -/
def Ls.entry (l : Ls) : LsEntry := ⟨some l.azi, some l.ele, some l.r, some l.gain, some l.imag, none⟩

/-- Point at azimuth and elevation in degrees. -/
noncomputable def atDeg (azi ele r : ℝ) : Vec3 :=
  ![r * cos (azi * (π / 180)) * cos (ele * (π / 180)), r * sin (azi * (π / 180)) * cos (ele * (π / 180)), r * sin (ele * (π / 180))]

noncomputable def Ls.pos (l : Ls) : Vec3 := atDeg l.azi.value l.ele.value l.r.value

theorem place_eq (azi ele r : ℝ) : place azi ele r = atDeg azi ele r := by
  unfold place sph2cart atDeg
  simp only [(deg2rad_trig _).1, (deg2rad_trig _).2]
  have h : (90 - ele) * (π / 180) = π / 2 - ele * (π / 180) := by ring
  rw [h, sin_pi_div_two_sub, cos_pi_div_two_sub]

theorem field_map {α β : Type} (ls : List β) (mk : β → LsEntry) (key : LsEntry → Option α) (f : β → α) (h : ∀ l ∈ ls, key (mk l) = some (f l)) :
    field (ls.map mk) key = .ok (ls.map f) := by
  unfold field
  induction ls with
  | nil => rfl
  | cons l ls ih =>
    have ih := ih fun l hl => h l (by simp [hl])
    simp only [List.map_cons, List.mapM_cons, ih, h l (by simp)]
    rfl

theorem places_map {β : Type} (ls : List β) (a e r : β → JNum) :
    places (ls.map a) (ls.map e) (ls.map r) = ls.map fun l => place (a l).value (e l).value (r l).value := by
  unfold places
  rw [List.zip_map', List.zip_map', List.map_map]; rfl

theorem filter_zip {β γ : Type} (ls : List β) (f : β → γ) (b : β → Bool) (c : Bool → Bool) :
    (((ls.map f).zip (ls.map b)).filter fun x => c x.2).map Prod.fst = (ls.filter fun l => c (b l)).map f := by
  rw [List.zip_map', List.filter_map, List.map_map]; rfl

/-- C76, C83: what `load_layout` returns for a file with all keys: the real loudspeakers in their order, at their positions relative to the
listener; in the Ambisonic hull these are followed by the imaginary ones (where the file says, whatever the listener position), which are marked
as imaginary; the gains are those of the file, in the order of the file. -/
theorem load_spec (qhull : (L : ℕ) → (Fin L → Vec3) → Py (List (Face L))) (lstsq : Mat3 → Mat3) (ndesign : ℤ → Option (List Vec3))
    (ls : List Ls) (listener : Option Vec3) (nk : Option ℤ) (lay : Layout)
    (h : loadLayout qhull lstsq ndesign (ls.map Ls.entry) listener nk = .ok lay) :
    lay.L = (ls.filter fun l => !l.imag).length ∧ lay.gains = numArr (ls.map Ls.gain) ∧
    (∀ (i : ℕ) (hi : i < lay.L), lay.setup.points ⟨i, hi⟩ = ((ls.filter fun l => !l.imag).map Ls.pos).getD i 0 - listener.getD 0) ∧
    ∃ am, lay.setup.ambi = some am ∧ am.M = (ls.filter fun l => l.imag).length ∧
      (∀ (i : ℕ) (hi : i < lay.L + am.M), am.hull.points ⟨i, hi⟩ = if i < lay.L then ((ls.filter fun l => !l.imag).map Ls.pos).getD i 0 - listener.getD 0
        else ((ls.filter fun l => l.imag).map Ls.pos).getD (i - lay.L) 0) ∧
      ∃ idx, am.imaginary = some idx ∧ ∀ i, i ∈ idx ↔ lay.L ≤ i.val := by
  have hfl : layoutFlags (ls.map Ls.entry) = ls.map Ls.imag := by
    unfold layoutFlags
    rw [field_map ls Ls.entry LsEntry.imag Ls.imag fun _ _ => rfl]
  have hpl : places (ls.map Ls.azi) (ls.map Ls.ele) (ls.map Ls.r) = ls.map Ls.pos := by
    rw [places_map]
    exact List.map_congr_left fun l _ => place_eq _ _ _
  obtain ⟨-, h2, h3, h4, am, h5, h6, h7, h8⟩ := load_ok qhull lstsq ndesign (ls.map Ls.entry) listener nk _ _ _ (field_map ls Ls.entry LsEntry.azi Ls.azi fun _ _ => rfl)
    (field_map ls Ls.entry LsEntry.ele Ls.ele fun _ _ => rfl) (field_map ls Ls.entry LsEntry.r Ls.r fun _ _ => rfl)
    ((ls.filter fun l => !l.imag).map Ls.pos) ((ls.filter fun l => l.imag).map Ls.pos)
    (by rw [hfl, hpl]; exact filter_zip ls Ls.pos Ls.imag (fun b => !b)) (by rw [hfl, hpl]; exact filter_zip ls Ls.pos Ls.imag (fun b => b)) lay h
  refine ⟨by rw [h3, List.length_map], ?_, h4, am, h5, by rw [h6, List.length_map], h7, h8⟩
  rw [h2]
  unfold layoutGains
  rw [field_map ls Ls.entry LsEntry.gain Ls.gain fun _ _ => rfl]

/-- C76: the gains of the real loudspeakers stay with them if all imaginary loudspeakers come last in the file.  (Missing: files in which an
imaginary loudspeaker precedes a real one, see `C76_gain_fails`.) -/
theorem C76_gain_partial (qhull : (L : ℕ) → (Fin L → Vec3) → Py (List (Face L))) (lstsq : Mat3 → Mat3) (ndesign : ℤ → Option (List Vec3))
    (real imag : List Ls) (hr : ∀ l ∈ real, l.imag = false) (hi : ∀ l ∈ imag, l.imag = true) (listener : Option Vec3) (nk : Option ℤ) (lay : Layout)
    (h : loadLayout qhull lstsq ndesign ((real ++ imag).map Ls.entry) listener nk = .ok lay) :
    lay.L = real.length ∧ ∀ (i : ℕ) (hi : i < real.length) (hi' : i < lay.L),
      lay.setup.points ⟨i, hi'⟩ = real[i].pos - listener.getD 0 ∧ lay.gains.values[i]? = some real[i].gain.value := by
  obtain ⟨h1, h2, h3, -⟩ := load_spec qhull lstsq ndesign (real ++ imag) listener nk lay h
  have hf : (real ++ imag).filter (fun l => !l.imag) = real := by
    rw [List.filter_append, List.filter_eq_self.2 (by intro l hl; simp [hr l hl]), List.filter_eq_nil_iff.2 (by intro l hl; simp [hi l hl]), List.append_nil]
  rw [hf] at h1 h3
  refine ⟨h1, fun i hi hi' => ⟨?_, ?_⟩⟩
  · rw [h3 i hi', List.getD_eq_getElem _ _ (by simpa using hi), List.getElem_map]
  · rw [h2]
    show ((List.map Ls.gain (real ++ imag)).map JNum.value)[i]? = _
    rw [List.map_map, List.getElem?_map, List.getElem?_append_left hi, List.getElem?_eq_getElem hi]; rfl

/-- C76 is false of files in which an imaginary loudspeaker comes first: the gain found for the first loudspeaker of the setup is that of the
imaginary one. -/
theorem C76_gain_fails (qhull : (L : ℕ) → (Fin L → Vec3) → Py (List (Face L))) (lstsq : Mat3 → Mat3) (ndesign : ℤ → Option (List Vec3))
    (im first : Ls) (rest : List Ls) (h1 : im.imag = true) (h2 : first.imag = false) (hg : im.gain.value ≠ first.gain.value)
    (listener : Option Vec3) (nk : Option ℤ) (lay : Layout)
    (h : loadLayout qhull lstsq ndesign ((im :: first :: rest).map Ls.entry) listener nk = .ok lay) :
    ∃ hL : 0 < lay.L, lay.setup.points ⟨0, hL⟩ = first.pos - listener.getD 0 ∧ lay.gains.values[0]? = some im.gain.value ∧
      lay.gains.values[0]? ≠ some first.gain.value := by
  obtain ⟨e1, e2, e3, -⟩ := load_spec qhull lstsq ndesign _ listener nk lay h
  have hf : (im :: first :: rest).filter (fun l => !l.imag) = first :: rest.filter fun l => !l.imag := by simp [h1, h2]
  rw [hf] at e1 e3
  have hL : 0 < lay.L := by rw [e1]; simp
  have hv : lay.gains.values[0]? = some im.gain.value := by rw [e2]; rfl
  refine ⟨hL, by rw [e3 0 hL]; rfl, hv, ?_⟩
  rw [hv]; simpa using hg

/-- C76: without `Gain` for some loudspeaker all gains are one; without `IsImaginary` for some loudspeaker all are real. -/
theorem C76_missing (ls : List LsEntry) (azi : List JNum) :
    ((∃ e ∈ ls, e.gain = none) → ∀ g ∈ (layoutGains ls azi).values, g = 1) ∧
    ((∃ e ∈ ls, e.gain = none) → (layoutGains ls azi).values.length = azi.length) ∧
    ((∃ e ∈ ls, e.imag = none) → ∀ b ∈ layoutFlags ls, b = false) ∧ ((∃ e ∈ ls, e.imag = none) → (layoutFlags ls).length = ls.length) := by
  have key : ∀ {α : Type} (key : LsEntry → Option α), (∃ e ∈ ls, key e = none) → ∃ e, field ls key = .error e := by
    intro α key ⟨e, he, hk⟩
    rcases hf : field ls key with x | ys
    · exact ⟨x, rfl⟩
    · exfalso
      unfold field at hf
      have : ∀ (l : List LsEntry) ys, l.mapM (fun e => match key e with
          | some v => (Except.ok v : Py α)
          | none => .error .keyError) = .ok ys → e ∉ l := by
        intro l
        induction l with
        | nil => intro _ _; simp
        | cons x l ih =>
          intro ys hys hm
          rw [List.mapM_cons] at hys
          rcases hx : key x with _ | v
          · simp only [hx] at hys; cases hys
          · simp only [hx] at hys
            rcases hr : l.mapM (fun e => match key e with
              | some v => (Except.ok v : Py α)
              | none => .error .keyError) with q | zs
            · change Except.bind (l.mapM _) _ = _ at hys
              rw [hr] at hys; cases hys
            · rcases List.mem_cons.1 hm with rfl | hm
              · rw [hk] at hx; cases hx
              · exact ih zs hr hm
      exact this ls ys hf he
  refine ⟨fun h => ?_, fun h => ?_, fun h => ?_, fun h => ?_⟩
  · obtain ⟨e, he⟩ := key LsEntry.gain h
    unfold layoutGains; rw [he]; simp
  · obtain ⟨e, he⟩ := key LsEntry.gain h
    unfold layoutGains; rw [he]; simp
  · obtain ⟨e, he⟩ := key LsEntry.imag h
    unfold layoutFlags; rw [he]; simp
  · obtain ⟨e, he⟩ := key LsEntry.imag h
    unfold layoutFlags; rw [he]; simp

/-! ### C76, saving and loading again -/

theorem finRange_real (L M : ℕ) : (List.finRange (L + M)).filter (fun i => !decide (L ≤ i.val)) = (List.finRange L).map (Fin.castAdd M) ∧
    (List.finRange (L + M)).filter (fun i => decide (L ≤ i.val)) = (List.finRange M).map (Fin.natAdd L) := by
  have h : List.finRange (L + M) = (List.finRange L).map (Fin.castAdd M) ++ (List.finRange M).map (Fin.natAdd L) := by
    rw [← List.ofFn_id, List.ofFn_add, ← List.ofFn_id L, ← List.ofFn_id M, List.map_ofFn, List.map_ofFn]; rfl
  have h1 : ∀ x ∈ (List.finRange L).map (Fin.castAdd M), ¬ L ≤ x.val := by
    intro x hx; obtain ⟨i, _, rfl⟩ := List.mem_map.1 hx; simp
  have h2 : ∀ x ∈ (List.finRange M).map (Fin.natAdd L), L ≤ x.val := by
    intro x hx; obtain ⟨i, _, rfl⟩ := List.mem_map.1 hx; simp
  constructor
  · rw [h, List.filter_append, List.filter_eq_self.2 (by intro x hx; simpa using h1 x hx), List.filter_eq_nil_iff.2 (by intro x hx; simpa using h2 x hx), List.append_nil]
  · rw [h, List.filter_append, List.filter_eq_nil_iff.2 (by intro x hx; simpa using h1 x hx), List.filter_eq_self.2 (by intro x hx; simpa using h2 x hx), List.nil_append]

/-- The entry for point `i` if it gets the number `g` as gain. -/
noncomputable def entryOf {L : ℕ} (am : Ambi L) (g : ℝ) (i : Fin (L + am.M)) : Ls :=
  let p := cart2sph (am.hull.points i 0) (am.hull.points i 1) (am.hull.points i 2) false false
  { azi := ⟨round2 (rad2deg p.1), false⟩, ele := ⟨round2 (90 - rad2deg p.2.1), false⟩, r := ⟨round2 p.2.2, false⟩, gain := ⟨g, false⟩,
    imag := decide (L ≤ i.val) }

/-- C76: `save_layout` succeeds for a prepared setup with a gain (float) for each loudspeaker, and `load_layout` of the file – if Qhull can handle
the rounded positions – restores number and order of loudspeakers, the gains of the real ones, and the imaginary flags; every
coordinate of every point differs by at most half a centimetre plus the rounding of the angles (in total `0.01` degrees times the radius). -/
theorem C76_roundtrip (lay : Layout) (am : Ambi lay.L) (ha : lay.setup.ambi = some am) (him : ∀ i, i ∈ am.imaginary.getD [] ↔ lay.L ≤ i.val)
    (hf : lay.gains.isInt = false) (hg : lay.L ≤ lay.gains.values.length) (hp : ∀ i, am.hull.points i ≠ 0) :
    ∃ es, saveLayout lay = .ok es ∧ ∀ (qhull : (L : ℕ) → (Fin L → Vec3) → Py (List (Face L))) (lstsq : Mat3 → Mat3) (ndesign : ℤ → Option (List Vec3))
      (nk : Option ℤ) (lay' : Layout), loadLayout qhull lstsq ndesign es none nk = .ok lay' →
      lay'.L = lay.L ∧ lay'.gains.isInt = false ∧ (∀ i < lay.L, lay'.gains.values[i]? = lay.gains.values[i]?) ∧
      ∃ am', lay'.setup.ambi = some am' ∧ am'.M = am.M ∧ (∃ idx, am'.imaginary = some idx ∧ ∀ i, i ∈ idx ↔ lay.L ≤ i.val) ∧
        (∀ (i : ℕ) (hi : i < lay.L + am.M) (hi' : i < lay'.L + am'.M) (c : Fin 3),
          |am'.hull.points ⟨i, hi'⟩ c - am.hull.points ⟨i, hi⟩ c| ≤ 0.005 + norm3 (am.hull.points ⟨i, hi⟩) * (0.01 * (π / 180))) ∧
        ∀ (i : ℕ) (hi : i < lay.L + am.M) (hi' : i < lay'.L) (c : Fin 3),
          |lay'.setup.points ⟨i, hi'⟩ c - am.hull.points ⟨i, hi⟩ c| ≤ 0.005 + norm3 (am.hull.points ⟨i, hi⟩) * (0.01 * (π / 180)) := by
  set g : Fin (lay.L + am.M) → ℝ := fun i => if lay.L ≤ i.val then 0 else lay.gains.values.getD i 0 with hgdef
  set E : Fin (lay.L + am.M) → LsEntry := fun i => { (entryOf am (g i) i).entry with channel := some (i + 1) } with hE
  have hentry : ∀ i, saveEntry am lay.gains i = .ok (E i) := by
    intro i
    unfold saveEntry
    by_cases hc : lay.L ≤ i.val
    · have hm := (him i).2 hc
      simp only [hm, decide_true, if_true]
      rw [hE]
      simp only [entryOf, Ls.entry, hgdef, hc, if_true, decide_true]
    · have hm : ¬ i ∈ am.imaginary.getD [] := fun h => hc ((him i).1 h)
      have hlt : i.val < lay.gains.values.length := by omega
      simp only [hm, decide_false, Bool.false_eq_true, if_false]
      rw [List.getElem?_eq_getElem hlt, hE]
      simp only [entryOf, Ls.entry, hgdef, hc, if_false, decide_false, hf, List.getD_eq_getElem _ _ hlt]
  refine ⟨(List.finRange _).map E, ?_, ?_⟩
  · unfold saveLayout
    rw [ha]
    simp only []
    rw [mapM_eq_map _ E _ fun i _ => hentry i]
    show (if ((List.finRange _).map E).any LsEntry.npInt then (Except.error .typeError : Py _) else .ok _) = _
    rw [if_neg]
    simp [hE, LsEntry.npInt, Ls.entry, entryOf]
  intro qhull lstsq ndesign nk lay' h
  set pos : Fin (lay.L + am.M) → Vec3 := fun i => (fun p : ℝ × ℝ × ℝ => place (round2 (rad2deg p.1)) (round2 (90 - rad2deg p.2.1)) (round2 p.2.2))
    (cart2sph (am.hull.points i 0) (am.hull.points i 1) (am.hull.points i 2) false false) with hpos
  have hfl : layoutFlags ((List.finRange (lay.L + am.M)).map E) = (List.finRange (lay.L + am.M)).map fun i => decide (lay.L ≤ i.val) := by
    unfold layoutFlags
    rw [field_map _ E LsEntry.imag (fun i => decide (lay.L ≤ i.val)) fun _ _ => rfl]
  obtain ⟨-, h2, h3, h4, am', h5, h6, h7, h8⟩ := load_ok qhull lstsq ndesign _ none nk _ _ _
    (field_map (List.finRange (lay.L + am.M)) E LsEntry.azi (fun i => (entryOf am (g i) i).azi) fun _ _ => rfl)
    (field_map _ E LsEntry.ele (fun i => (entryOf am (g i) i).ele) fun _ _ => rfl)
    (field_map _ E LsEntry.r (fun i => (entryOf am (g i) i).r) fun _ _ => rfl)
    ((List.finRange lay.L).map fun i => pos (Fin.castAdd am.M i)) ((List.finRange am.M).map fun i => pos (Fin.natAdd lay.L i))
    (by
      rw [hfl, places_map]
      refine (filter_zip _ _ _ (fun b => !b)).trans ?_
      rw [(finRange_real lay.L am.M).1, List.map_map]; rfl)
    (by
      rw [hfl, places_map]
      refine (filter_zip _ _ _ (fun b => b)).trans ?_
      rw [(finRange_real lay.L am.M).2, List.map_map]; rfl) lay' h
  rw [List.length_map, List.length_finRange] at h3 h6
  have hgains : lay'.gains = numArr ((List.finRange (lay.L + am.M)).map fun i => ⟨g i, false⟩) := by
    rw [h2]
    unfold layoutGains
    rw [field_map _ E LsEntry.gain (fun i => ⟨g i, false⟩) fun _ _ => rfl]
  have hreal : ∀ i (hi : i < lay.L), ((List.finRange lay.L).map fun i => pos (Fin.castAdd am.M i)).getD i 0 = pos ⟨i, by omega⟩ := by
    intro i hi
    rw [List.getD_eq_getElem _ _ (by simpa using hi), List.getElem_map, List.getElem_finRange]; rfl
  have himg : ∀ i (hi : i < am.M), ((List.finRange am.M).map fun i => pos (Fin.natAdd lay.L i)).getD i 0 = pos ⟨lay.L + i, by omega⟩ := by
    intro i hi
    rw [List.getD_eq_getElem _ _ (by simpa using hi), List.getElem_map, List.getElem_finRange]; rfl
  have hnear : ∀ i c, |pos i c - am.hull.points i c| ≤ 0.005 + norm3 (am.hull.points i) * (0.01 * (π / 180)) := fun i c =>
    place_near _ (hp i) c
  refine ⟨h3, ?_, ?_, am', h5, h6, ?_, ?_, ?_⟩
  · rw [hgains]
    simp only [numArr]
    rcases Nat.eq_zero_or_pos (lay.L + am.M) with hz | hz
    · have : List.finRange (lay.L + am.M) = [] := by
        apply List.eq_nil_of_length_eq_zero; rw [List.length_finRange]; exact hz
      simp [this]
    · have : ((List.finRange (lay.L + am.M)).map fun i => (⟨g i, false⟩ : JNum)).all JNum.isInt = false := by
        rw [List.all_eq_false]
        exact ⟨⟨g ⟨0, hz⟩, false⟩, List.mem_map.2 ⟨⟨0, hz⟩, List.mem_finRange _, rfl⟩, by simp⟩
      rw [this, Bool.and_false]
  · intro i hi
    rw [hgains]
    have hlt : i < lay.gains.values.length := by omega
    simp only [numArr, List.map_map, List.getElem?_map]
    rw [List.getElem?_eq_getElem (by rw [List.length_finRange]; omega), List.getElem_finRange, List.getElem?_eq_getElem hlt]
    simp only [Option.map_some, Function.comp_apply, hgdef]
    rw [if_neg (by simpa using hi)]
    simp [hlt]
  · obtain ⟨idx, h9, h10⟩ := h8
    exact ⟨idx, h9, fun i => (h10 i).trans (by omega)⟩
  · intro i hi hi' c
    rw [h7 i hi']
    by_cases hc : i < lay'.L
    · rw [if_pos hc, hreal i (by omega)]
      show |(pos ⟨i, _⟩ - (0 : Vec3)) c - _| ≤ _
      rw [sub_zero]; exact hnear ⟨i, hi⟩ c
    · rw [if_neg hc, himg (i - lay'.L) (by omega)]
      have : (⟨lay.L + (i - lay'.L), by omega⟩ : Fin (lay.L + am.M)) = ⟨i, hi⟩ := by apply Fin.ext; show lay.L + (i - lay'.L) = i; omega
      rw [this]; exact hnear ⟨i, hi⟩ c
  · intro i hi hi' c
    rw [h4 i hi', hreal i (by omega)]
    show |(pos ⟨i, _⟩ - (0 : Vec3)) c - _| ≤ _
    rw [sub_zero]; exact hnear ⟨i, hi⟩ c

/-- C76: `save_layout` refuses a setup that was not prepared for Ambisonics. -/
theorem C76_unprepared (lay : Layout) (h : lay.setup.ambi = none) : saveLayout lay = .error .valueError := by
  unfold saveLayout; rw [h]

/-- `C76_unprepared`: the octahedron without setup. -/
example : saveLayout ⟨6, ⟨Oct.hull, none, none⟩, ⟨false, [1, 1, 1, 1, 1, 1]⟩⟩ = .error .valueError := C76_unprepared _ rfl

/-- C76 is false of files whose gains are all written without fraction: the layout loaded from such a file cannot be saved again. -/
theorem C76_integer_gains_fail (qhull : (L : ℕ) → (Fin L → Vec3) → Py (List (Face L))) (lstsq : Mat3 → Mat3) (ndesign : ℤ → Option (List Vec3))
    (ls : List Ls) (hint : ∀ l ∈ ls, l.gain.isInt = true) (hreal : ∃ l ∈ ls, l.imag = false) (listener : Option Vec3) (nk : Option ℤ) (lay : Layout)
    (h : loadLayout qhull lstsq ndesign (ls.map Ls.entry) listener nk = .ok lay) : saveLayout lay = .error .typeError := by
  obtain ⟨h1, h2, -, am, h4, h5, -, idx, h7, h8⟩ := load_spec qhull lstsq ndesign ls listener nk lay h
  obtain ⟨l, hl, hli⟩ := hreal
  have hL : 0 < lay.L := by
    rw [h1]
    exact List.length_pos_of_mem (List.mem_filter.2 ⟨hl, by simp [hli]⟩)
  have hne : ls ≠ [] := List.ne_nil_of_mem hl
  have hisInt : lay.gains.isInt = true := by
    rw [h2]
    simp only [numArr, Bool.and_eq_true, Bool.not_eq_true', List.isEmpty_eq_false_iff]
    refine ⟨by simpa using hne, ?_⟩
    rw [List.all_eq_true]
    intro x hx
    obtain ⟨l, hl, rfl⟩ := List.mem_map.1 hx
    exact hint l hl
  have hlen : lay.L ≤ lay.gains.values.length := by
    rw [h2, h1]
    simp only [numArr, List.length_map]
    exact List.length_filter_le _ _
  have hE : ∀ i, ∃ e : LsEntry, saveEntry am lay.gains i = .ok e ∧ (i.val < lay.L → e.npInt = true) := by
    intro i
    unfold saveEntry
    have hm : i ∈ am.imaginary.getD [] ↔ lay.L ≤ i.val := by rw [h7]; exact h8 i
    by_cases hc : lay.L ≤ i.val
    · simp only [hm.2 hc, decide_true, if_true]
      exact ⟨_, rfl, fun h => by omega⟩
    · have hlt : i.val < lay.gains.values.length := by omega
      have hm' : ¬ i ∈ am.imaginary.getD [] := fun h => hc (hm.1 h)
      simp only [hm', decide_false, Bool.false_eq_true, if_false]
      rw [List.getElem?_eq_getElem hlt]
      exact ⟨_, rfl, fun _ => hisInt⟩
  choose E hE1 hE2 using hE
  unfold saveLayout
  rw [h4]
  simp only []
  rw [mapM_eq_map _ E _ fun i _ => hE1 i]
  show (if ((List.finRange _).map E).any LsEntry.npInt then (Except.error .typeError : Py _) else .ok _) = _
  rw [if_pos]
  rw [List.any_eq_true]
  exact ⟨E ⟨0, by omega⟩, List.mem_map.2 ⟨_, List.mem_finRange _, rfl⟩, hE2 _ hL⟩

/-! ### C83 -/

/-- C83, partial: real loudspeakers are moved by the listener position, and without a listener position (or with the origin) all points are where the
file says.  (Missing: imaginary loudspeakers with a listener position, see `C83_imaginary_fails`.) -/
theorem C83_partial (qhull : (L : ℕ) → (Fin L → Vec3) → Py (List (Face L))) (lstsq : Mat3 → Mat3) (ndesign : ℤ → Option (List Vec3))
    (ls : List Ls) (listener : Option Vec3) (nk : Option ℤ) (lay : Layout)
    (h : loadLayout qhull lstsq ndesign (ls.map Ls.entry) listener nk = .ok lay) :
    (∀ (i : ℕ) (hi : i < lay.L), lay.setup.points ⟨i, hi⟩ = ((ls.filter fun l => !l.imag).map Ls.pos).getD i 0 - listener.getD 0) ∧
    ∃ am, lay.setup.ambi = some am ∧ ∀ (i : ℕ) (hi : i < lay.L + am.M), i < lay.L ∨ listener.getD 0 = 0 →
      am.hull.points ⟨i, hi⟩ = ((ls.filter (fun l => !l.imag) ++ ls.filter fun l => l.imag).map Ls.pos).getD i 0 - listener.getD 0 := by
  obtain ⟨h1, -, h3, am, h4, h5, h6, -⟩ := load_spec qhull lstsq ndesign ls listener nk lay h
  refine ⟨h3, am, h4, fun i hi hc => ?_⟩
  rw [h6 i hi, List.map_append]
  by_cases hlt : i < lay.L
  · rw [if_pos hlt, List.getD_append _ _ _ _ (by rw [List.length_map, ← h1]; exact hlt)]
  · rw [if_neg hlt, List.getD_append_right _ _ _ _ (by rw [List.length_map, ← h1]; omega), List.length_map, ← h1]
    rcases hc with hc | hc
    · exact absurd hc hlt
    · rw [hc, sub_zero]

/-- C83 is false of imaginary loudspeakers: with any other listener position than the origin they stay where the file says. -/
theorem C83_imaginary_fails (qhull : (L : ℕ) → (Fin L → Vec3) → Py (List (Face L))) (lstsq : Mat3 → Mat3) (ndesign : ℤ → Option (List Vec3))
    (ls : List Ls) (p : Vec3) (hp : p ≠ 0) (him : ∃ l ∈ ls, l.imag = true) (nk : Option ℤ) (lay : Layout)
    (h : loadLayout qhull lstsq ndesign (ls.map Ls.entry) (some p) nk = .ok lay) :
    ∃ am, lay.setup.ambi = some am ∧ ∃ (i : ℕ) (hi : i < lay.L + am.M), lay.L ≤ i ∧
      am.hull.points ⟨i, hi⟩ ≠ ((ls.filter (fun l => !l.imag) ++ ls.filter fun l => l.imag).map Ls.pos).getD i 0 - p := by
  obtain ⟨h1, -, h3, am, h4, h5, h6, -⟩ := load_spec qhull lstsq ndesign ls (some p) nk lay h
  obtain ⟨l, hl, hli⟩ := him
  have hM : 0 < am.M := by
    rw [h5]; exact List.length_pos_of_mem (List.mem_filter.2 ⟨hl, hli⟩)
  refine ⟨am, h4, lay.L, by omega, le_refl _, ?_⟩
  rw [h6 lay.L (by omega), if_neg (lt_irrefl _), List.map_append,
    List.getD_append_right _ _ _ _ (by rw [List.length_map, ← h1]), List.length_map, ← h1]
  intro hc
  exact hp (by simpa using hc.symm)

/-! ### A file with the octahedron and an imaginary loudspeaker inside it -/

/-- A hull routine for the octahedron and further points inside it. -/
def qhullIn : (L : ℕ) → (Fin L → Vec3) → Py (List (Face L)) := fun L p =>
  if 6 = L then Oct.qhull L p
  else if h : 6 ≤ L then .ok (Oct.rawFaces.map fun f i => Fin.castLE h (f i)) else .error .runtimeError

/-- Layout file: the octahedron with gains one, two, ..., six. -/
def octLs (int : Bool) : List Ls :=
  [⟨⟨0, false⟩, ⟨0, false⟩, ⟨1, false⟩, ⟨1, int⟩, false⟩, ⟨⟨180, false⟩, ⟨0, false⟩, ⟨1, false⟩, ⟨2, int⟩, false⟩,
   ⟨⟨90, false⟩, ⟨0, false⟩, ⟨1, false⟩, ⟨3, int⟩, false⟩, ⟨⟨-90, false⟩, ⟨0, false⟩, ⟨1, false⟩, ⟨4, int⟩, false⟩,
   ⟨⟨0, false⟩, ⟨90, false⟩, ⟨1, false⟩, ⟨5, int⟩, false⟩, ⟨⟨0, false⟩, ⟨-90, false⟩, ⟨1, false⟩, ⟨6, int⟩, false⟩]

/-- An imaginary loudspeaker below the listener. -/
noncomputable def insideLs (int : Bool) : Ls := ⟨⟨0, false⟩, ⟨-90, false⟩, ⟨1 / 2, false⟩, ⟨0, int⟩, true⟩

theorem octLs_pos (int : Bool) : (octLs int).map Ls.pos = List.ofFn Oct.pts := by
  have h90 : (90 : ℝ) * (π / 180) = π / 2 := by ring
  have h90' : (-90 : ℝ) * (π / 180) = -(π / 2) := by ring
  have h180 : (180 : ℝ) * (π / 180) = π := by field_simp
  simp only [octLs, List.map_cons, List.map_nil, Ls.pos, atDeg, h90, h90', h180, zero_mul, cos_zero, sin_zero, cos_pi_div_two, sin_pi_div_two, cos_pi, sin_pi,
    cos_neg, sin_neg, mul_zero, mul_one, one_mul]
  simp [Oct.pts, List.ofFn_succ]

theorem insideLs_pos (int : Bool) : (insideLs int).pos = ![0, 0, -(1 / 2)] := by
  have h90' : (-90 : ℝ) * (π / 180) = -(π / 2) := by ring
  simp only [insideLs, Ls.pos, atDeg, h90', cos_neg, sin_neg, cos_pi_div_two, sin_pi_div_two, mul_zero, mul_neg, mul_one]

theorem mkHull_total (qhull : (L : ℕ) → (Fin L → Vec3) → Py (List (Face L))) {L : ℕ} (pts : Fin L → Vec3) (lp : Vec3)
    (h : ∃ fs, qhull L (fun l => pts l - lp) = .ok fs) : ∃ hull, mkHull qhull pts lp = .ok hull := by
  obtain ⟨fs, h⟩ := h
  unfold mkHull
  rw [show (do let faces ← qhull L (fun l => pts l - lp); _ : Py (Hull L)) = (qhull L fun l => pts l - lp).bind _ from rfl, h]
  exact ⟨_, rfl⟩

theorem qhullIn_ok (L : ℕ) (p : Fin L → Vec3) (h : 6 ≤ L) : ∃ fs, qhullIn L p = .ok fs := by
  unfold qhullIn Oct.qhull
  by_cases h6 : 6 = L
  · rw [if_pos h6, dif_pos h6]; exact ⟨_, rfl⟩
  · rw [if_neg h6, dif_pos h]; exact ⟨_, rfl⟩

theorem mkSetup_oct (lstsq : Mat3 → Mat3) (hl : LstsqSpec lstsq) (n : ℕ) (hn : n = 6) (p : Fin n → Vec3) (lp : Vec3)
    (h : ∀ i : Fin 6, p (Fin.cast hn.symm i) - lp = Oct.pts i) :
    ∃ s, mkSetup qhullIn p lp = .ok s ∧ setupOrder lstsq s.toHull none = .ok 2 := by
  subst hn
  have hp : (fun l => p l - lp) = fun l => Oct.pts l - (0 : Vec3) := by funext l; rw [sub_zero]; exact h l
  have hm : mkHull qhullIn p lp = .ok Oct.hull := by
    rw [← Oct.mkHull_eq]
    unfold mkHull
    rw [hp]
    rfl
  refine ⟨⟨Oct.hull, none, none⟩, ?_, ?_⟩
  · unfold mkSetup; rw [hm]; rfl
  · show getCharacteristicOrder lstsq Oct.hull = _
    unfold getCharacteristicOrder
    show (characteristicAmbisonicOrder lstsq { Oct.hull with valid := Oct.faces }).bind _ = _
    rw [oct_order lstsq hl]; rfl

theorem buildLayout_oct (lstsq : Mat3 → Mat3) (hl : LstsqSpec lstsq) (real imag : List Vec3) (gains : NumArr) (listener : Option Vec3)
    (h : real.map (· - listener.getD 0) = List.ofFn Oct.pts) :
    ∃ lay, buildLayout qhullIn lstsq (fun _ => some (List.ofFn Oct.pts)) real imag gains listener (some 1) = .ok lay := by
  have hn : real.length = 6 := by have := congrArg List.length h; simpa using this
  obtain ⟨s, hs, ho⟩ := mkSetup_oct lstsq hl real.length hn (fun l => real[l]) (listener.getD 0) (by
    intro i
    have h1 : (real.map (· - listener.getD 0))[i.val]? = some (Oct.pts i) := by rw [h]; exact List.getElem?_ofFn.trans (dif_pos i.2)
    have h2 : (real.map (· - listener.getD 0))[i.val]? = some (real[i.val] - listener.getD 0) := by
      rw [List.getElem?_map, List.getElem?_eq_getElem (by omega)]; rfl
    rw [h2] at h1
    exact Option.some.inj h1)
  obtain ⟨hull, hh⟩ := mkHull_total qhullIn (Fin.append ({ s.toHull with charOrder := some 2 } : Hull real.length).points
    fun i : Fin ((some imag).getD []).length => ((some imag).getD [])[i]) 0 (qhullIn_ok _ _ (by omega))
  have ham : ∃ am, mkAmbi qhullIn ({ s.toHull with charOrder := some 2 } : Hull real.length) (some imag) = .ok am := by
    unfold mkAmbi
    change ∃ am, (mkHull qhullIn (Fin.append _ _) 0).bind _ = _
    rw [hh]; exact ⟨_, rfl⟩
  obtain ⟨am, ham⟩ := ham
  have hld : Grids.loadNDesign (fun _ => some (List.ofFn Oct.pts)) (2 * 1) = .ok (List.ofFn Oct.pts, []) := by
    unfold Grids.loadNDesign Grids.loadNext
    simp
  obtain ⟨f, hq⟩ := qhullIn_ok (List.ofFn Oct.pts).length (fun i => (List.ofFn Oct.pts)[i]) (by simp)
  have hsh := setupHulls_ok qhullIn (fun _ => some (List.ofFn Oct.pts)) ({ s.toHull with charOrder := some 2 } : Hull real.length) true (some imag) 1 rfl ham hld hq
  have hok : (ambisonicsSetup qhullIn lstsq (fun _ => some (List.ofFn Oct.pts)) s true (some imag) none (some 1)).1 = .ok () := by
    unfold ambisonicsSetup
    rw [ho]
    dsimp only
    rw [hsh]
  unfold buildLayout
  rw [hs]
  show ∃ lay, (ambisonicsSetup qhullIn lstsq (fun _ => some (List.ofFn Oct.pts)) s true (some imag) none (some 1)).1.map _ = .ok lay
  rw [hok]; exact ⟨_, rfl⟩

theorem load_oct (lstsq : Mat3 → Mat3) (hl : LstsqSpec lstsq) (ls : List Ls) (hne : ls ≠ []) (listener : Option Vec3)
    (h : ((ls.filter fun l => !l.imag).map fun l => l.pos - listener.getD 0) = List.ofFn Oct.pts) :
    ∃ lay, loadLayout qhullIn lstsq (fun _ => some (List.ofFn Oct.pts)) (ls.map Ls.entry) listener (some 1) = .ok lay := by
  have hfl : layoutFlags (ls.map Ls.entry) = ls.map Ls.imag := by
    unfold layoutFlags
    rw [field_map ls Ls.entry LsEntry.imag Ls.imag fun _ _ => rfl]
  have hpl : places (ls.map Ls.azi) (ls.map Ls.ele) (ls.map Ls.r) = ls.map Ls.pos := by
    rw [places_map]
    exact List.map_congr_left fun l _ => place_eq _ _ _
  unfold loadLayout
  rw [field_map ls Ls.entry LsEntry.azi Ls.azi fun _ _ => rfl, field_map ls Ls.entry LsEntry.ele Ls.ele fun _ _ => rfl,
    field_map ls Ls.entry LsEntry.r Ls.r fun _ _ => rfl]
  show ∃ lay, (if ls.map Ls.entry = [] then (Except.error .typeError : Py Layout) else _) = .ok lay
  rw [if_neg (by simpa using hne), hpl, hfl]
  apply buildLayout_oct lstsq hl
  rw [← h]
  have := filter_zip ls Ls.pos Ls.imag (fun b => !b)
  rw [this, List.map_map]; rfl

theorem octLs_real (int : Bool) : ((octLs int ++ [insideLs int]).filter fun l => !l.imag) = octLs int ∧
    ((insideLs int :: octLs int).filter fun l => !l.imag) = octLs int := by
  constructor <;> rfl

theorem map_sub_zero (l : List Ls) : (l.map fun l => l.pos - (none : Option Vec3).getD 0) = l.map Ls.pos :=
  List.map_congr_left fun _ _ => sub_zero _

/-- `C76_gain_partial`: the hypotheses are met. -/
example : ∃ lstsq lay, loadLayout qhullIn lstsq (fun _ => some (List.ofFn Oct.pts)) ((octLs false ++ [insideLs false]).map Ls.entry) none (some 1) = .ok lay ∧
    lay.gains.values[5]? = some 6 := by
  obtain ⟨lstsq, hl⟩ := exists_lstsq3
  obtain ⟨lay, h⟩ := load_oct lstsq hl (octLs false ++ [insideLs false]) (by simp) none (by rw [(octLs_real false).1, map_sub_zero, octLs_pos])
  obtain ⟨h1, h2⟩ := C76_gain_partial _ _ _ (octLs false) [insideLs false] (by simp [octLs]) (by simp [insideLs]) none (some 1) lay h
  exact ⟨lstsq, lay, h, (h2 5 (by simp [octLs]) (by rw [h1]; simp [octLs])).2⟩

/-- `C76_gain_fails`: the hypotheses are met. -/
example : ∃ lstsq lay, loadLayout qhullIn lstsq (fun _ => some (List.ofFn Oct.pts)) ((insideLs false :: octLs false).map Ls.entry) none (some 1) = .ok lay ∧
    lay.gains.values[0]? = some 0 := by
  obtain ⟨lstsq, hl⟩ := exists_lstsq3
  obtain ⟨lay, h⟩ := load_oct lstsq hl (insideLs false :: octLs false) (by simp) none (by rw [(octLs_real false).2, map_sub_zero, octLs_pos])
  obtain ⟨_, _, h2, _⟩ := C76_gain_fails _ _ _ (insideLs false) _ _ rfl rfl (by norm_num [insideLs]) none (some 1) lay h
  exact ⟨lstsq, lay, h, by rw [h2]; rfl⟩

/-- `C76_integer_gains_fail`: the hypotheses are met. -/
example : ∃ lstsq lay, loadLayout qhullIn lstsq (fun _ => some (List.ofFn Oct.pts)) ((octLs true ++ [insideLs true]).map Ls.entry) none (some 1) = .ok lay ∧
    saveLayout lay = .error .typeError := by
  obtain ⟨lstsq, hl⟩ := exists_lstsq3
  obtain ⟨lay, h⟩ := load_oct lstsq hl (octLs true ++ [insideLs true]) (by simp) none (by rw [(octLs_real true).1, map_sub_zero, octLs_pos])
  exact ⟨lstsq, lay, h, C76_integer_gains_fail _ _ _ (octLs true ++ [insideLs true]) (by simp [octLs, insideLs]) (by simp [octLs]) none (some 1) lay h⟩

/-- `C76_roundtrip`: the hypotheses are met by a layout that was loaded. -/
example : ∃ (lay : Layout) (am : Ambi lay.L), lay.setup.ambi = some am ∧ (∀ i, i ∈ am.imaginary.getD [] ↔ lay.L ≤ i.val) ∧
    lay.gains.isInt = false ∧ lay.L ≤ lay.gains.values.length ∧ (∀ i, am.hull.points i ≠ 0) ∧ lay.L = 6 ∧ am.M = 1 := by
  obtain ⟨lstsq, hl⟩ := exists_lstsq3
  obtain ⟨lay, h⟩ := load_oct lstsq hl (octLs false ++ [insideLs false]) (by simp) none (by rw [(octLs_real false).1, map_sub_zero, octLs_pos])
  obtain ⟨h1, h2, -, am, h4, h5, h6, idx, h7, h8⟩ := load_spec _ _ _ _ _ _ lay h
  have hL : lay.L = 6 := by rw [h1, (octLs_real false).1]; rfl
  have hM : am.M = 1 := by rw [h5]; rfl
  refine ⟨lay, am, h4, by rw [h7]; exact h8, by rw [h2]; simp [numArr, octLs], by rw [hL, h2]; simp [numArr, octLs], ?_, hL, hM⟩
  rintro ⟨i, hi⟩
  rw [h6 i hi, (octLs_real false).1, octLs_pos]
  split_ifs with hc
  · show _ - (0 : Vec3) ≠ 0
    rw [sub_zero, List.getD_eq_getElem _ _ (by simp; omega), List.getElem_ofFn]
    exact Oct.pts_ne _
  · have : i - lay.L = 0 := by omega
    rw [this]
    show (insideLs false).pos ≠ 0
    rw [insideLs_pos]
    intro h
    have := congrFun h 2
    simp at this

/-- `C76_missing`: some key is missing. -/
example : ∃ e ∈ [(insideLs true).entry, ⟨none, none, none, none, none, none⟩], e.gain = none ∧ e.imag = none :=
  ⟨⟨none, none, none, none, none, none⟩, by simp, rfl, rfl⟩

/-- The octahedron around `(1, 0, 0)`, with an imaginary loudspeaker. -/
noncomputable def movedLs : List Ls :=
  [⟨⟨0, false⟩, ⟨0, false⟩, ⟨2, false⟩, ⟨1, false⟩, false⟩, ⟨⟨0, false⟩, ⟨0, false⟩, ⟨0, false⟩, ⟨1, false⟩, false⟩,
   ⟨⟨45, false⟩, ⟨0, false⟩, ⟨√2, false⟩, ⟨1, false⟩, false⟩, ⟨⟨-45, false⟩, ⟨0, false⟩, ⟨√2, false⟩, ⟨1, false⟩, false⟩,
   ⟨⟨0, false⟩, ⟨45, false⟩, ⟨√2, false⟩, ⟨1, false⟩, false⟩, ⟨⟨0, false⟩, ⟨-45, false⟩, ⟨√2, false⟩, ⟨1, false⟩, false⟩, insideLs false]

/-- `C83_partial`, `C83_imaginary_fails`: the hypotheses are met. -/
example : ∃ lstsq lay, loadLayout qhullIn lstsq (fun _ => some (List.ofFn Oct.pts)) (movedLs.map Ls.entry) (some ![1, 0, 0]) (some 1) = .ok lay ∧
    (![1, 0, 0] : Vec3) ≠ 0 ∧ ∃ l ∈ movedLs, l.imag = true := by
  obtain ⟨lstsq, hl⟩ := exists_lstsq3
  have h45 : (45 : ℝ) * (π / 180) = π / 4 := by ring
  have h45' : (-45 : ℝ) * (π / 180) = -(π / 4) := by ring
  have hs : √2 * (√2 / 2) = 1 := by rw [← mul_div_assoc, Real.mul_self_sqrt (by norm_num)]; norm_num
  have hs' : √2 * -(√2 / 2) = -1 := by rw [mul_neg, hs]
  have hfl : (movedLs.filter fun l => !l.imag) = movedLs.take 6 := rfl
  obtain ⟨lay, h⟩ := load_oct lstsq hl movedLs (by simp [movedLs]) (some ![1, 0, 0]) (by
    rw [hfl]
    simp only [movedLs, List.take_succ_cons, List.take_zero, List.map_cons, List.map_nil, Ls.pos, atDeg, h45, h45', zero_mul, cos_zero, sin_zero, cos_pi_div_four, sin_pi_div_four,
      cos_neg, sin_neg, mul_zero, mul_one, hs, hs', Option.getD_some]
    simp [Oct.pts, List.ofFn_succ]
    norm_num
    constructor <;> (funext i; fin_cases i <;> rfl))
  refine ⟨lstsq, lay, h, ?_, insideLs false, by simp [movedLs], rfl⟩
  intro h
  have := congrFun h 0
  simp at this

end Verif.Props
