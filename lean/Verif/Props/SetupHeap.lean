import Verif.Model.DecoderHeap
import Mathlib.Tactic

/-!
C39: which arrays of the caller the constructor of `LoudspeakerSetup` modifies.
-/

namespace Verif.Props
open Real Verif.Utils Verif.Decoder

/-- Cells allocated before, with their contents, are the same. -/
def Same (m m' : Mem) : Prop := ∀ a < m.next, m'.cell a = m.cell a

theorem same_trans {m m' m'' : Mem} (h : Same m m') (hn : m.next ≤ m'.next) (h' : Same m' m'') : Same m m'' :=
  fun a ha => (h' a (by omega)).trans (h a ha)

theorem asarray_same (m : Mem) (x : Arg) : Same m (toCells m x).2 ∧ m.next ≤ (toCells m x).2.next := by
  cases x with
  | seq v => exact ⟨fun a ha => if_neg (by omega), Nat.le_add_right _ _⟩
  | array c => exact ⟨fun a _ => rfl, le_refl _⟩

/-- C39, part that holds: if `x`, `y`, `z` and the listener position are Python sequences (or the latter is omitted), nothing the
caller owns is modified. Missing: arguments that are arrays (`C39_effect` states what happens to them). -/
theorem C39_sequences_partial (m : Mem) (x y z : List ℝ) (l : Option (List ℝ)) (res : (List ℕ × List ℕ × List ℕ) × Mem)
    (h : initArrays m (.seq x) (.seq y) (.seq z) (l.map .seq) = .ok res) : Same m res.2 := by
  have hlp : ∃ lv, (l.map Arg.seq).getD (.seq [0, 0, 0]) = .seq lv := by cases l <;> exact ⟨_, rfl⟩
  obtain ⟨lv, hlv⟩ := hlp
  unfold initArrays at h
  simp only [hlv, toCells, Arg.get, Arg.vals] at h
  cases h0 : lv[0]? with
  | none => rw [h0] at h; cases h
  | some v0 =>
    cases h1 : lv[1]? with
    | none => rw [h0, h1] at h; cases h
    | some v1 =>
      cases h2 : lv[2]? with
      | none => rw [h0, h1, h2] at h; cases h
      | some v2 =>
        rw [h0, h1, h2] at h
        cases h
        intro a ha
        have nm : ∀ k n : ℕ, m.next ≤ k → a ∉ (List.range n).map (k + ·) := by
          intro k n hk hmem
          obtain ⟨b, _, hb⟩ := List.mem_map.1 hmem
          omega
        simp only [subSelf, subScalar]
        rw [if_neg (nm _ _ (by omega)), if_neg (nm _ _ (by omega)), if_neg (nm _ _ (by omega)), if_neg (nm _ _ (by omega))]
        have s1 := asarray_same m (.seq x)
        have s2 := asarray_same (toCells m (.seq x)).2 (.seq y)
        have s3 := asarray_same (toCells (toCells m (.seq x)).2 (.seq y)).2 (.seq z)
        have s4 := asarray_same (toCells (toCells (toCells m (.seq x)).2 (.seq y)).2 (.seq z)).2 (.seq lv)
        exact same_trans s1.1 s1.2 (same_trans s2.1 s2.2 (same_trans s3.1 s3.2 s4.1)) a ha

/-- `C39_sequences_partial`: two loudspeakers and a listener, all given as lists; some result exists. -/
example : ∃ res, initArrays ⟨fun _ => 0, 0⟩ (.seq [1, 2]) (.seq [3, 4]) (.seq [5, 6]) ((some [1, 1, 1]).map .seq) = .ok res ∧ Same ⟨fun _ => 0, 0⟩ res.2 := by
  have h : ∃ res, initArrays ⟨fun _ => 0, 0⟩ (.seq [1, 2]) (.seq [3, 4]) (.seq [5, 6]) ((some [1, 1, 1]).map .seq) = .ok res := ⟨_, rfl⟩
  obtain ⟨res, h⟩ := h
  exact ⟨res, h, C39_sequences_partial _ _ _ _ _ _ h⟩

/-- C39, part that holds: without a listener position nothing the caller owns is modified, whatever the arguments are and even if
they share memory. -/
theorem C39_no_listener_partial (m : Mem) (x y z : Arg)
    (res : (List ℕ × List ℕ × List ℕ) × Mem) (h : initArrays m x y z none = .ok res) : Same m res.2 := by
  unfold initArrays at h
  simp only [Option.getD_none] at h
  set m1 := (toCells m x).2
  set m2 := (toCells m1 y).2
  set m3 := (toCells m2 z).2
  have s1 := asarray_same m x
  have s2 := asarray_same m1 y
  have s3 := asarray_same m2 z
  have s4 := asarray_same m3 (.seq [0, 0, 0])
  have s13 : Same m m3 := same_trans s1.1 s1.2 (same_trans s2.1 s2.2 s3.1)
  have n13 : m.next ≤ m3.next := s1.2.trans (s2.2.trans s3.2)
  cases h
  intro a ha
  have nm : a ∉ (toCells m3 (.seq [0, 0, 0])).1 := by
    intro hmem
    obtain ⟨b, _, hb⟩ := List.mem_map.1 hmem
    omega
  simp only [subSelf, subScalar]
  rw [if_neg nm]
  have e : ∀ (P : Prop) [Decidable P] (v : ℝ), (if P then v - 0 else v) = v := by intro P _ v; split_ifs <;> simp
  simp only [e]
  exact same_trans s13 n13 s4.1 a ha

/-- `C39_no_listener_partial`: two loudspeakers given as arrays. -/
example : ∃ res, initArrays ⟨fun a => a, 6⟩ (.array [0, 1]) (.array [2, 3]) (.array [4, 5]) none = .ok res ∧ Same ⟨fun a => a, 6⟩ res.2 := by
  have h : ∃ res, initArrays ⟨fun a => a, 6⟩ (.array [0, 1]) (.array [2, 3]) (.array [4, 5]) none = .ok res := ⟨_, rfl⟩
  obtain ⟨res, h⟩ := h
  exact ⟨res, h, C39_no_listener_partial _ _ _ _ _ h⟩

/-- C39, what happens otherwise: array arguments that do not overlap are shifted by the listener position *in the caller's memory*,
and the caller's listener position array is set to zero. -/
theorem C39_effect (m : Mem) (x y z : List ℕ) (l0 l1 l2 : ℕ) (hxy : List.Disjoint x y) (hxz : List.Disjoint x z) (hyz : List.Disjoint y z)
    (hlx : List.Disjoint [l0, l1, l2] x) (hly : List.Disjoint [l0, l1, l2] y) (hlz : List.Disjoint [l0, l1, l2] z) :
    ∃ m', initArrays m (.array x) (.array y) (.array z) (some (.array [l0, l1, l2])) = .ok ((x, y, z), m')
      ∧ (∀ a ∈ x, m'.cell a = m.cell a - m.cell l0) ∧ (∀ a ∈ y, m'.cell a = m.cell a - m.cell l1)
      ∧ (∀ a ∈ z, m'.cell a = m.cell a - m.cell l2) ∧ (∀ a ∈ [l0, l1, l2], m'.cell a = 0)
      ∧ ∀ a, a ∉ x → a ∉ y → a ∉ z → a ∉ [l0, l1, l2] → m'.cell a = m.cell a := by
  have h1x : l1 ∉ x := fun h => hlx (by simp) h
  have h2x : l2 ∉ x := fun h => hlx (by simp) h
  have h2y : l2 ∉ y := fun h => hly (by simp) h
  refine ⟨_, rfl, ?_, ?_, ?_, ?_, ?_⟩
  all_goals
    simp only [subSelf, subScalar, toCells, Arg.get, Arg.vals, Option.getD_some, List.map_cons, List.map_nil,
      List.getElem?_cons_zero, List.getElem?_cons_succ, if_neg h1x, if_neg h2x, if_neg h2y]
  · intro a ha
    rw [if_neg (fun h => hlx h ha), if_neg (fun h => hxz ha h), if_neg (fun h => hxy ha h), if_pos ha]
  · intro a ha
    rw [if_neg (fun h => hly h ha), if_neg (fun h => hyz ha h), if_pos ha, if_neg (fun h => hxy h ha)]
  · intro a ha
    rw [if_neg (fun h => hlz h ha), if_pos ha, if_neg (fun h => hyz h ha), if_neg (fun h => hxz h ha)]
  · intro a ha
    rw [if_pos ha, sub_self]
  · intro a hx hy hz hl
    rw [if_neg hl, if_neg hz, if_neg hy, if_neg hx]

/-- `C39_effect`: two loudspeakers and a listener given as arrays. -/
example : ∃ m', initArrays ⟨fun a => a, 9⟩ (.array [0, 1]) (.array [2, 3]) (.array [4, 5]) (some (.array [6, 7, 8])) = .ok (([0, 1], [2, 3], [4, 5]), m') ∧
    m'.cell 1 = 1 - 6 := by
  obtain ⟨m', h, hx, -⟩ := C39_effect ⟨fun a => a, 9⟩ [0, 1] [2, 3] [4, 5] 6 7 8 (by simp) (by simp) (by simp) (by simp) (by simp) (by simp)
  exact ⟨m', h, by simpa using hx 1 (by simp)⟩

/-- C39, negation: the arrays `x = [1, 2]`, `y = z = [0, 0]` and a listener position `[1, 0, 0]` of the caller are overwritten. -/
theorem C39_modified : ∃ (m : Mem) (x y z l : List ℕ) (res : (List ℕ × List ℕ × List ℕ) × Mem),
    initArrays m (.array x) (.array y) (.array z) (some (.array l)) = .ok res ∧ (Arg.array x).vals m = [1, 2]
    ∧ (Arg.array x).vals res.2 = [0, 1] ∧ (Arg.array l).vals m = [1, 0, 0] ∧ (Arg.array l).vals res.2 = [0, 0, 0] := by
  let m : Mem := ⟨fun a => if a = 0 then 1 else if a = 1 then 2 else if a = 6 then 1 else 0, 9⟩
  obtain ⟨m', h, hx, _, _, hl, _⟩ := C39_effect m [0, 1] [2, 3] [4, 5] 6 7 8 (by simp) (by simp) (by simp) (by simp) (by simp) (by simp)
  refine ⟨m, [0, 1], [2, 3], [4, 5], [6, 7, 8], _, h, ?_, ?_, ?_, ?_⟩
  · simp [Arg.vals, m]
  · simp only [Arg.vals, List.map_cons, List.map_nil]
    rw [hx 0 (by simp), hx 1 (by simp)]
    simp [m]; norm_num
  · simp [Arg.vals, m]
  · simp only [Arg.vals, List.map_cons, List.map_nil]
    rw [hl 6 (by simp), hl 7 (by simp), hl 8 (by simp)]

/-- C39, negation for shared memory: passing the *same* array for two coordinates shifts it twice. -/
theorem C39_shared (m : Mem) (x z : List ℕ) (l0 l1 l2 : ℝ) (hxz : List.Disjoint x z) (hx : ∀ a ∈ x, a < m.next) :
    ∃ m', initArrays m (.array x) (.array x) (.array z) (some (.seq [l0, l1, l2])) = .ok ((x, x, z), m')
      ∧ ∀ a ∈ x, m'.cell a = m.cell a - l0 - l1 := by
  refine ⟨_, rfl, ?_⟩
  intro a ha
  have hlt := hx a ha
  simp only [subSelf, subScalar, toCells, Arg.vals, Arg.get, Option.getD_some, List.getElem?_cons_zero, List.getElem?_cons_succ,
    List.length_cons, List.length_nil]
  rw [if_neg, if_neg (fun h => hxz ha h), if_pos ha, if_pos ha, if_neg (by omega)]
  intro hmem
  obtain ⟨b, _, hb⟩ := List.mem_map.1 hmem
  omega

/-- A listener position with fewer than three values raises `IndexError`. -/
theorem C39_listener_short (m : Mem) (x y z : Arg) (l : List ℝ) (hl : l.length < 3) :
    initArrays m x y z (some (.seq l)) = .error .indexError := by
  unfold initArrays
  match l, hl with
  | [], _ => rfl
  | [_], _ => rfl
  | [_, _], _ => rfl

/-- `C39_listener_short`: a listener position without height. -/
example : initArrays ⟨fun _ => 0, 0⟩ (.seq [1, 2]) (.seq [3, 4]) (.seq [5, 6]) (some (.seq [1, 1])) = .error .indexError :=
  C39_listener_short _ _ _ _ _ (by norm_num)

/-- `C39_shared`: one array for the first two coordinates. -/
example : ∃ m', initArrays ⟨fun a => a, 4⟩ (.array [0, 1]) (.array [0, 1]) (.array [2, 3]) (some (.seq [1, 2, 3])) = .ok (([0, 1], [0, 1], [2, 3]), m') ∧
    m'.cell 1 = 1 - 1 - 2 := by
  obtain ⟨m', h, hx⟩ := C39_shared ⟨fun a => a, 4⟩ [0, 1] [2, 3] 1 2 3 (by simp) (by simp)
  exact ⟨m', h, by simpa using hx 1 (by simp)⟩

/-- C39: the alternative constructor `from_sph` never modifies anything the caller owns. -/
theorem C39_from_sph (m : Mem) (azi zen r : Arg) (l : Option Arg) (res : (List ℕ × List ℕ × List ℕ) × Mem)
    (h : fromSphArrays m azi zen r l = .ok res) : Same m res.2 := by
  unfold fromSphArrays at h
  simp only at h
  split at h
  · exact C39_sequences_partial m _ _ _ (some _) res h
  · cases h

/-- `C39_from_sph`: arrays for all coordinates and the listener. -/
example : ∃ res, fromSphArrays ⟨fun a => a, 9⟩ (.array [0, 1]) (.array [2, 3]) (.array [4, 5]) (some (.array [6, 7, 8])) = .ok res ∧
    Same ⟨fun a => a, 9⟩ res.2 := by
  have h : ∃ res, fromSphArrays ⟨fun a => a, 9⟩ (.array [0, 1]) (.array [2, 3]) (.array [4, 5]) (some (.array [6, 7, 8])) = .ok res := ⟨_, rfl⟩
  obtain ⟨res, h⟩ := h
  exact ⟨res, h, C39_from_sph _ _ _ _ _ _ h⟩

/-- Link to `mkHull`: for arguments that do not overlap the object holds the positions relative to the listener. -/
theorem C39_points (m : Mem) (x y z : List ℕ) (l0 l1 l2 : ℕ) (hxy : List.Disjoint x y) (hxz : List.Disjoint x z) (hyz : List.Disjoint y z)
    (hlx : List.Disjoint [l0, l1, l2] x) (hly : List.Disjoint [l0, l1, l2] y) (hlz : List.Disjoint [l0, l1, l2] z) :
    ∃ m', initArrays m (.array x) (.array y) (.array z) (some (.array [l0, l1, l2])) = .ok ((x, y, z), m')
      ∧ (Arg.array x).vals m' = ((Arg.array x).vals m).map (· - m.cell l0)
      ∧ (Arg.array y).vals m' = ((Arg.array y).vals m).map (· - m.cell l1)
      ∧ (Arg.array z).vals m' = ((Arg.array z).vals m).map (· - m.cell l2) := by
  obtain ⟨m', h, h1, h2, h3, _⟩ := C39_effect m x y z l0 l1 l2 hxy hxz hyz hlx hly hlz
  refine ⟨m', h, ?_, ?_, ?_⟩ <;> simp only [Arg.vals, List.map_map]
  · exact List.map_congr_left h1
  · exact List.map_congr_left h2
  · exact List.map_congr_left h3

/-- `C39_points`: the loudspeakers relative to the listener. -/
example : ∃ m', initArrays ⟨fun a => a, 9⟩ (.array [0, 1]) (.array [2, 3]) (.array [4, 5]) (some (.array [6, 7, 8])) = .ok (([0, 1], [2, 3], [4, 5]), m') ∧
    (Arg.array [2, 3]).vals m' = [2 - 7, 3 - 7] := by
  obtain ⟨m', h, -, hy, -⟩ := C39_points ⟨fun a => a, 9⟩ [0, 1] [2, 3] [4, 5] 6 7 8 (by simp) (by simp) (by simp) (by simp) (by simp) (by simp)
  exact ⟨m', h, by rw [hy]; simp [Arg.vals]⟩

theorem init_seq (m : Mem) (x y z : List ℝ) (l0 l1 l2 : ℝ) :
    ∃ res, initArrays m (.seq x) (.seq y) (.seq z) (some (.seq [l0, l1, l2])) = .ok res ∧
      (Arg.array res.1.1).vals res.2 = x.map (· - l0) ∧ (Arg.array res.1.2.1).vals res.2 = y.map (· - l1)
      ∧ (Arg.array res.1.2.2).vals res.2 = z.map (· - l2) := by
  have mem : ∀ a k n : ℕ, a ∈ (List.range n).map (k + ·) ↔ k ≤ a ∧ a < k + n := by
    intro a k n
    simp only [List.mem_map, List.mem_range]
    exact ⟨fun ⟨b, hb, e⟩ => by omega, fun h => ⟨a - k, by omega, by omega⟩⟩
  refine ⟨_, rfl, ?_, ?_, ?_⟩
  all_goals
    refine List.ext_getElem (by simp [Arg.vals]) fun i h1 h2 => ?_
    rw [List.length_map] at h2
    simp only [Arg.vals, subScalar, subSelf, mem, List.getElem_map, List.getElem_range, List.length_cons, List.length_nil]
  · rw [if_neg (by omega), if_neg (by omega), if_neg (by omega), if_pos (by omega), if_neg (by omega), if_neg (by omega), if_neg (by omega),
      if_pos (by omega)]
    simp [h2]
  · rw [if_neg (by omega), if_neg (by omega), if_pos (by omega), if_neg (by omega), if_neg (by omega), if_neg (by omega), if_pos (by omega)]
    simp [h2]
  · rw [if_neg (by omega), if_pos (by omega), if_neg (by omega), if_neg (by omega), if_neg (by omega), if_pos (by omega)]
    simp [h2]

/-- C39: the loudspeakers made by `from_sph` are at the given azimuths, zeniths and radii, relative to the (spherical) listener position. -/
theorem C39_from_sph_points (m : Mem) (azi zen r : Arg) (n : ℕ) (h1 : (azi.vals m).length = n) (h2 : (zen.vals m).length = n)
    (h3 : (r.vals m).length = n) (l : Option Arg) (la lz lr : ℝ) (hlis : (l.getD (.seq [0, 0, 0])).vals m = [la, lz, lr]) :
    ∃ res, fromSphArrays m azi zen r l = .ok res ∧
      (Arg.array res.1.1).vals res.2 = (List.range n).map (fun i => (r.vals m).getD i 0 * cos ((azi.vals m).getD i 0) * sin ((zen.vals m).getD i 0)
        - lr * cos la * sin lz) ∧
      (Arg.array res.1.2.1).vals res.2 = (List.range n).map (fun i => (r.vals m).getD i 0 * sin ((azi.vals m).getD i 0) * sin ((zen.vals m).getD i 0)
        - lr * sin la * sin lz) ∧
      (Arg.array res.1.2.2).vals res.2 = (List.range n).map (fun i => (r.vals m).getD i 0 * cos ((zen.vals m).getD i 0) - lr * cos lz) := by
  set pts := ((azi.vals m).zip ((zen.vals m).zip (r.vals m))).map fun t => sph2cart t.1 t.2.1 t.2.2 with hpts
  have hp : pts = (List.range n).map fun i => sph2cart ((azi.vals m).getD i 0) ((zen.vals m).getD i 0) ((r.vals m).getD i 0) := by
    refine List.ext_getElem (by simp [hpts, h1, h2, h3]) fun i hi hi' => ?_
    have hn : i < n := by simpa using hi'
    simp [hpts, List.getElem?_eq_getElem, h1, h2, h3, hn]
  obtain ⟨res, he, hx, hy, hz⟩ := init_seq m (pts.map fun p => p.1) (pts.map fun p => p.2.1) (pts.map fun p => p.2.2)
    (sph2cart la lz lr).1 (sph2cart la lz lr).2.1 (sph2cart la lz lr).2.2
  refine ⟨res, ?_, ?_, ?_, ?_⟩
  · unfold fromSphArrays
    simp only [hlis]
    exact he
  · rw [hx, hp, List.map_map, List.map_map]; rfl
  · rw [hy, hp, List.map_map, List.map_map]; rfl
  · rw [hz, hp, List.map_map, List.map_map]; rfl

/-- C39: two loudspeakers given as an array and sequences, listener by default at the origin. -/
example : ∃ res, fromSphArrays ⟨fun a => a, 2⟩ (.array [0, 1]) (.seq [1, 2]) (.seq [1, 3]) none = .ok res ∧
    (Arg.array res.1.2.2).vals res.2 = (List.range 2).map (fun i => [1, (3 : ℝ)].getD i 0 * cos ([1, (2 : ℝ)].getD i 0) - 0 * cos 0) := by
  obtain ⟨res, h, _, _, h2⟩ := C39_from_sph_points ⟨fun a => a, 2⟩ (.array [0, 1]) (.seq [1, 2]) (.seq [1, 3]) 2 rfl rfl rfl none 0 0 0 rfl
  exact ⟨res, h, h2⟩

end Verif.Props
