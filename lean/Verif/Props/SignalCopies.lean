import Mathlib.Tactic
import Verif.Model.SigHeap
import Verif.Props.Signals

/-! C50: `trim_audio` works on a copy, copies are independent. -/

namespace Verif.SigHeap

open Verif.Sig

/-- All arrays of object `k` live in allocated buffers and within them. -/
def Live (s : Store) (k : ℕ) : Prop := ∀ v ∈ (s.objs k).views, v.buf < s.next ∧ v.lo ≤ v.hi ∧ v.hi ≤ (s.bufs v.buf).length

/-- Objects `k` and `n` share no buffer. -/
def Apart (s : Store) (k n : ℕ) : Prop := ∀ v ∈ (s.objs k).views, ∀ w ∈ (s.objs n).views, v.buf ≠ w.buf

/-! #### Facts on the store -/

theorem alloc_old (s : Store) (cs : List (List ℝ)) (v : View) (hv : v.buf < s.next) : content (alloc s cs) v = content s v := by
  simp only [content, alloc]
  rw [if_neg (by omega)]

theorem alloc_buf (s : Store) (cs : List (List ℝ)) (b : ℕ) (hb : b < s.next) : (alloc s cs).bufs b = s.bufs b := by
  simp only [alloc]
  rw [if_neg (by omega)]

theorem freshViews_mem {n : ℕ} {cs : List (List ℝ)} {v : View} (h : v ∈ freshViews n cs) :
    ∃ (i : ℕ) (hi : i < cs.length), v = { buf := n + i, lo := 0, hi := cs[i].length } := by
  rw [freshViews, List.mem_mapIdx] at h
  obtain ⟨i, hi, rfl⟩ := h
  exact ⟨i, hi, rfl⟩

theorem alloc_fresh_buf (s : Store) (cs : List (List ℝ)) (i : ℕ) (hi : i < cs.length) : (alloc s cs).bufs (s.next + i) = cs[i] := by
  simp only [alloc]
  rw [if_pos (by omega), show s.next + i - s.next = i by omega, List.getD_eq_getElem?_getD, List.getElem?_eq_getElem hi]
  rfl

theorem read_fresh (s : Store) (cs : List (List ℝ)) : (freshViews s.next cs).map (content (alloc s cs)) = cs := by
  apply List.ext_getElem (by simp [freshViews])
  intro i h1 h2
  rw [List.getElem_map]
  simp only [freshViews, List.getElem_mapIdx, content]
  rw [alloc_fresh_buf s cs i h2]
  simp

theorem sliceBound_le (n : ℕ) (a : ℤ) : sliceBound n a ≤ n := by
  unfold sliceBound; split <;> omega

theorem content_slice (s : Store) (v : View) (h : v.lo ≤ v.hi) (hv : v.hi ≤ (s.bufs v.buf).length) (a b : ℤ) :
    content s (v.slice a b) = pySlice (content s v) a b := by
  have hl : (((s.bufs v.buf).take v.hi).drop v.lo).length = v.hi - v.lo := by simp [hv]
  have hb := sliceBound_le (v.hi - v.lo) b
  have ha := sliceBound_le (v.hi - v.lo) a
  simp only [content, View.slice, pySlice, hl]
  rw [List.take_drop, List.drop_drop, List.take_take, min_eq_left (by omega)]
  rcases le_total (sliceBound (v.hi - v.lo) a) (sliceBound (v.hi - v.lo) b) with h1 | h1
  · rw [max_eq_right h1]
  · rw [max_eq_left h1, List.drop_eq_nil_of_le (by simp), List.drop_eq_nil_of_le (by simp; omega)]

theorem deepcopy_other (s : Store) (k n j : ℕ) (hj : j ≠ n) (hl : Live s j) : read (deepcopy s k n) j = read s j := by
  have ho : (deepcopy s k n).objs j = s.objs j := by simp [deepcopy, setObj, alloc, hj]
  rw [read, ho, read]
  refine List.map_congr_left fun v hv => ?_
  exact alloc_old s _ v (hl v hv).1

theorem deepcopy_read (s : Store) (k n : ℕ) : read (deepcopy s k n) n = read s k := by
  have ho : (deepcopy s k n).objs n = { s.objs k with views := freshViews s.next (read s k) } := by simp [deepcopy, setObj]
  rw [read, ho]
  exact read_fresh s _

theorem deepcopy_apart (s : Store) (k n : ℕ) (hkn : k ≠ n) (hl : Live s k) : Apart (deepcopy s k n) k n ∧ Live (deepcopy s k n) k ∧ Live (deepcopy s k n) n := by
  have ho : (deepcopy s k n).objs n = { s.objs k with views := freshViews s.next (read s k) } := by simp [deepcopy, setObj]
  have hk : (deepcopy s k n).objs k = s.objs k := by simp [deepcopy, setObj, alloc, hkn]
  refine ⟨fun v hv w hw => ?_, fun v hv => ?_, fun w hw => ?_⟩
  · rw [hk] at hv; rw [ho] at hw
    obtain ⟨i, hi, rfl⟩ := freshViews_mem hw
    have := (hl v hv).1
    simp only
    omega
  · rw [hk] at hv
    refine ⟨?_, (hl v hv).2.1, ?_⟩
    · have := (hl v hv).1
      simp only [deepcopy, setObj, alloc]; omega
    · have := (hl v hv)
      change v.hi ≤ ((alloc s (read s k)).bufs v.buf).length
      rw [alloc_buf _ _ _ this.1]
      exact this.2.2
  · rw [ho] at hw
    obtain ⟨i, hi, rfl⟩ := freshViews_mem hw
    refine ⟨by simp only [deepcopy, setObj, alloc]; omega, Nat.zero_le _, ?_⟩
    change _ ≤ ((alloc s (read s k)).bufs (s.next + i)).length
    rw [alloc_fresh_buf _ _ _ hi]

/-! #### One action -/

theorem cutObj_mem {o : Obj} {a b : ℝ} {v : View} (h : v ∈ (cutObj o a b).views) : ∃ w ∈ o.views, v.buf = w.buf ∧
    (v = w ∨ ∃ x y, v = w.slice x y) := by
  simp only [cutObj, List.mem_mapIdx] at h
  obtain ⟨i, hi, rfl⟩ := h
  refine ⟨o.views[i], List.getElem_mem _, ?_⟩
  split
  · exact ⟨rfl, Or.inr ⟨_, _, rfl⟩⟩
  · exact ⟨rfl, Or.inl rfl⟩

/-- The buffers of an object after an action on it were already its own or are new. -/
theorem act_bufs (s : Store) (k : ℕ) (a : Act) : s.next ≤ (act s k a).next ∧
    ∀ v ∈ ((act s k a).objs k).views, (∃ w ∈ (s.objs k).views, v.buf = w.buf) ∨ s.next ≤ v.buf := by
  cases a with
  | trim x y =>
    refine ⟨le_rfl, fun v hv => Or.inl ?_⟩
    simp only [act, setObj, if_true] at hv
    obtain ⟨w, hw, h, -⟩ := cutObj_mem hv
    exact ⟨w, hw, h⟩
  | rebind f =>
    refine ⟨by simp [act, setObj, alloc], fun v hv => ?_⟩
    simp only [act, setObj, if_true, List.mem_append] at hv
    rcases hv with hv | hv
    · obtain ⟨i, hi, rfl⟩ := freshViews_mem hv
      right; simp
    · exact Or.inl ⟨v, List.mem_of_mem_drop hv, rfl⟩
  | reinit f fs n =>
    refine ⟨by simp [act, setObj, alloc], fun v hv => ?_⟩
    simp only [act, setObj, if_true, List.mem_append] at hv
    right
    rcases hv with hv | hv
    · obtain ⟨i, hi, rfl⟩ := freshViews_mem hv
      simp
    · obtain ⟨i, hi, rfl⟩ := freshViews_mem (List.mem_of_mem_take hv)
      simp
  | write j i x =>
    simp only [act]
    split
    · exact ⟨le_rfl, fun v hv => Or.inl ⟨v, hv, rfl⟩⟩
    · split
      · exact ⟨le_rfl, fun v hv => Or.inl ⟨v, hv, rfl⟩⟩
      · exact ⟨le_rfl, fun v hv => Or.inl ⟨v, hv, rfl⟩⟩

/-- An action does not touch other objects, nor buffers that are not its own. -/
theorem act_frame (s : Store) (k : ℕ) (a : Act) : (∀ j, j ≠ k → (act s k a).objs j = s.objs j) ∧
    ∀ b, b < s.next → (∀ w ∈ (s.objs k).views, b ≠ w.buf) → (act s k a).bufs b = s.bufs b := by
  cases a with
  | trim x y => exact ⟨fun j hj => by simp [act, setObj, hj], fun b _ _ => rfl⟩
  | rebind f => exact ⟨fun j hj => by simp [act, setObj, alloc, hj], fun b hb _ => alloc_buf s _ b hb⟩
  | reinit f fs n => exact ⟨fun j hj => by simp [act, setObj, alloc, hj], fun b hb _ => alloc_buf s _ b hb⟩
  | write j i x =>
    simp only [act]
    split
    · exact ⟨fun _ _ => rfl, fun _ _ _ => rfl⟩
    · rename_i w hw
      split
      · refine ⟨fun _ _ => rfl, fun b _ hb => ?_⟩
        simp only
        rw [if_neg (hb w (List.mem_of_getElem? hw))]
      · exact ⟨fun _ _ => rfl, fun _ _ _ => rfl⟩

theorem fresh_live {s : Store} {cs : List (List ℝ)} {v : View} (h : v ∈ freshViews s.next cs) :
    v.buf < (alloc s cs).next ∧ v.lo ≤ v.hi ∧ v.hi ≤ ((alloc s cs).bufs v.buf).length := by
  obtain ⟨i, hi, rfl⟩ := freshViews_mem h
  refine ⟨by simp only [alloc]; omega, Nat.zero_le _, ?_⟩
  simp only
  rw [alloc_fresh_buf _ _ _ hi]

theorem act_live (s : Store) (k : ℕ) (a : Act) (hl : Live s k) : Live (act s k a) k := by
  cases a with
  | trim x y =>
    intro v hv
    simp only [act, setObj, if_true] at hv
    obtain ⟨w, hw, h, hv'⟩ := cutObj_mem hv
    obtain ⟨h1, h0, h2⟩ := hl w hw
    refine ⟨by rw [h]; exact h1, ?_⟩
    change v.lo ≤ v.hi ∧ v.hi ≤ (s.bufs v.buf).length
    rw [h]
    rcases hv' with rfl | ⟨p, q, rfl⟩
    · exact ⟨h0, h2⟩
    · simp only [View.slice]
      have := sliceBound_le (w.hi - w.lo) p
      have := sliceBound_le (w.hi - w.lo) q
      omega
  | rebind f =>
    intro v hv
    simp only [act, setObj, if_true, List.mem_append] at hv
    rcases hv with hv | hv
    · exact fresh_live hv
    · obtain ⟨h1, h0, h2⟩ := hl v (List.mem_of_mem_drop hv)
      refine ⟨by simp only [act, setObj, alloc]; omega, h0, ?_⟩
      change v.hi ≤ ((alloc s _).bufs v.buf).length
      rwa [alloc_buf _ _ _ h1]
  | reinit f fs n =>
    intro v hv
    simp only [act, setObj, if_true, List.mem_append] at hv
    rcases hv with hv | hv
    · exact fresh_live hv
    · exact fresh_live (List.mem_of_mem_take hv)
  | write j i x =>
    simp only [act]
    split
    · exact hl
    · split
      · intro v hv
        obtain ⟨h1, h0, h2⟩ := hl v hv
        refine ⟨h1, h0, ?_⟩
        simp only
        split
        · simpa using h2
        · exact h2
      · exact hl

/-- An action on one object leaves what is read from an object apart from it, and keeps them apart. -/
theorem act_apart (s : Store) (k n : ℕ) (hkn : k ≠ n) (a : Act) (ha : Apart s k n) (hk : Live s k) (hn : Live s n) :
    Apart (act s n a) k n ∧ Live (act s n a) k ∧ Live (act s n a) n ∧ (act s n a).objs k = s.objs k ∧
      ∀ v ∈ (s.objs k).views, (act s n a).bufs v.buf = s.bufs v.buf := by
  obtain ⟨f1, f2⟩ := act_frame s n a
  obtain ⟨b1, b2⟩ := act_bufs s n a
  have hobj := f1 k hkn
  have hbuf : ∀ v ∈ (s.objs k).views, (act s n a).bufs v.buf = s.bufs v.buf :=
    fun v hv => f2 v.buf (hk v hv).1 fun w hw => ha v hv w hw
  refine ⟨fun v hv w hw => ?_, fun v hv => ?_, act_live s n a hn, hobj, hbuf⟩
  · rw [hobj] at hv
    rcases b2 w hw with ⟨w', hw', h⟩ | h
    · rw [h]; exact ha v hv w' hw'
    · have := (hk v hv).1
      omega
  · rw [hobj] at hv
    obtain ⟨h1, h0, h2⟩ := hk v hv
    exact ⟨by omega, h0, by rwa [hbuf v hv]⟩

theorem Apart.symm {s : Store} {k n : ℕ} (h : Apart s k n) : Apart s n k := fun v hv w hw => (h w hw v hv).symm

/-! #### Two stores that agree on an object -/

/-- Object `k` looks the same in two stores: same windows, same sharing pattern among its arrays, same buffer contents. -/
def Same (k : ℕ) (s t : Store) : Prop :=
  (s.objs k).nch = (t.objs k).nch ∧ (s.objs k).fs = (t.objs k).fs ∧ (s.objs k).views.length = (t.objs k).views.length ∧
  (∀ (i : ℕ) (v w : View), (s.objs k).views[i]? = some v → (t.objs k).views[i]? = some w → v.lo = w.lo ∧ v.hi = w.hi ∧ s.bufs v.buf = t.bufs w.buf) ∧
  ∀ (i j : ℕ) (v v' w w' : View), (s.objs k).views[i]? = some v → (s.objs k).views[j]? = some v' → (t.objs k).views[i]? = some w →
    (t.objs k).views[j]? = some w' → (v.buf = v'.buf ↔ w.buf = w'.buf)

theorem Same.read {k : ℕ} {s t : Store} (h : Same k s t) : read s k = read t k := by
  obtain ⟨-, -, h3, h4, -⟩ := h
  apply List.ext_getElem (by simpa [SigHeap.read] using h3)
  intro i h1 h2
  simp only [SigHeap.read, List.getElem_map]
  simp only [SigHeap.read, List.length_map] at h1 h2
  obtain ⟨e1, e2, e3⟩ := h4 i _ _ (List.getElem?_eq_getElem h1) (List.getElem?_eq_getElem h2)
  simp only [content, e1, e2, e3]

theorem Same.refl (k : ℕ) (s : Store) : Same k s s := by
  refine ⟨rfl, rfl, rfl, ?_, ?_⟩
  · intro i v w h1 h2
    rw [h1] at h2; cases h2; exact ⟨rfl, rfl, rfl⟩
  · intro i j v v' w w' h1 h2 h3 h4
    rw [h1] at h3; rw [h2] at h4; cases h3; cases h4; rfl

/-- A change elsewhere keeps the object the same. -/
theorem Same.frame {k : ℕ} {s s' t : Store} (h : Same k s t) (ho : s'.objs k = s.objs k)
    (hb : ∀ v ∈ (s.objs k).views, s'.bufs v.buf = s.bufs v.buf) : Same k s' t := by
  obtain ⟨h1, h2, h3, h4, h5⟩ := h
  unfold Same
  rw [ho]
  refine ⟨h1, h2, h3, ?_, h5⟩
  intro i v w hv hw
  rw [hb v (List.mem_of_getElem? hv)]
  exact h4 i v w hv hw

theorem freshViews_get {n : ℕ} {cs : List (List ℝ)} {i : ℕ} {v : View} (h : (freshViews n cs)[i]? = some v) :
    ∃ hi : i < cs.length, v = { buf := n + i, lo := 0, hi := cs[i].length } := by
  obtain ⟨hi, rfl⟩ := List.getElem?_eq_some_iff.1 h
  exact ⟨by simpa [freshViews] using hi, by simp [freshViews]⟩

/-- The views of a list of fresh arrays followed by a list of old ones. -/
theorem append_get {a : List View} {b : List View} {i : ℕ} {v : View} (h : (a ++ b)[i]? = some v) :
    (i < a.length ∧ a[i]? = some v) ∨ (a.length ≤ i ∧ b[i - a.length]? = some v) := by
  rcases lt_or_ge i a.length with h1 | h1
  · left; rw [List.getElem?_append_left h1] at h; exact ⟨h1, h⟩
  · right; rw [List.getElem?_append_right h1] at h; exact ⟨h1, h⟩

theorem freshViews_length (n : ℕ) (cs : List (List ℝ)) : (freshViews n cs).length = cs.length := by simp [freshViews]

/-- An action on the object does the same in two stores in which the object looks the same. -/
theorem act_same (k : ℕ) (s t : Store) (h : Same k s t) (hs : Live s k) (ht : Live t k) (a : Act) : Same k (act s k a) (act t k a) := by
  have hread := h.read
  obtain ⟨h1, h2, h3, h4, h5⟩ := h
  cases a with
  | trim x y =>
    have get : ∀ (u : Store) (i : ℕ) (v : View), ((act u k (.trim x y)).objs k).views[i]? = some v → ∃ v0, (u.objs k).views[i]? = some v0 ∧
        v = if i < (u.objs k).nch then v0.slice (pyInt (x * (u.objs k).fs)) (pyInt (y * (u.objs k).fs)) else v0 := by
      intro u i v hv
      simp only [act, setObj, if_true, cutObj, List.getElem?_mapIdx] at hv
      rcases hq : (u.objs k).views[i]? with _ | v0
      · rw [hq] at hv; cases hv
      · rw [hq] at hv
        exact ⟨v0, rfl, by simpa using hv.symm⟩
    refine ⟨by simpa [act, setObj, cutObj] using h1, by simpa [act, setObj, cutObj] using h2, by simpa [act, setObj, cutObj] using h3, ?_, ?_⟩
    · intro i v w hv hw
      obtain ⟨v0, g1, rfl⟩ := get s i v hv
      obtain ⟨w0, g2, rfl⟩ := get t i w hw
      obtain ⟨e1, e2, e3⟩ := h4 i v0 w0 g1 g2
      rw [h1, h2]
      split
      · refine ⟨?_, ?_, e3⟩
        · simp only [View.slice, e1, e2]
        · simp only [View.slice, e1, e2]
      · exact ⟨e1, e2, e3⟩
    · intro i j v v' w w' hv hv' hw hw'
      obtain ⟨v0, g1, rfl⟩ := get s i v hv
      obtain ⟨v0', g1', rfl⟩ := get s j v' hv'
      obtain ⟨w0, g2, rfl⟩ := get t i w hw
      obtain ⟨w0', g2', rfl⟩ := get t j w' hw'
      have e := h5 i j v0 v0' w0 w0' g1 g1' g2 g2'
      have key : ∀ (p : Prop) [Decidable p] (z : View) (a b : ℤ), (if p then z.slice a b else z).buf = z.buf := by
        intro p _ z a b; split <;> rfl
      simpa only [key] using e
  | rebind f =>
    have get : ∀ (u : Store), Live u k → ∀ (i : ℕ) (v : View), ((act u k (.rebind f)).objs k).views[i]? = some v →
        (∃ hi : i < (f (read u k)).length, v = ⟨u.next + i, 0, (f (read u k))[i].length⟩ ∧ (act u k (.rebind f)).bufs v.buf = (f (read u k))[i]) ∨
        ((f (read u k)).length ≤ i ∧ (u.objs k).views[(u.objs k).nch + (i - (f (read u k)).length)]? = some v ∧ v.buf < u.next ∧
          (act u k (.rebind f)).bufs v.buf = u.bufs v.buf) := by
      intro u hu i v hv
      simp only [act, setObj, if_true] at hv
      rcases append_get hv with ⟨g1, g2⟩ | ⟨g1, g2⟩
      · left
        obtain ⟨hi, rfl⟩ := freshViews_get g2
        exact ⟨hi, rfl, alloc_fresh_buf u _ i hi⟩
      · right
        rw [freshViews_length] at g1 g2
        rw [List.getElem?_drop] at g2
        have hb := (hu v (List.mem_of_getElem? g2)).1
        exact ⟨g1, g2, hb, alloc_buf u _ _ hb⟩
    have gs := get s hs
    have gt := get t ht
    rw [hread] at gs
    rw [h1] at gs
    refine ⟨by simp [act, setObj, hread], by simpa [act, setObj] using h2, by simp [act, setObj, hread, freshViews_length, h1, h3], ?_, ?_⟩
    · intro i v w hv hw
      rcases gs i v hv with ⟨hi, rfl, e1⟩ | ⟨hi, g1, b1, e1⟩ <;> rcases gt i w hw with ⟨hi', rfl, e2⟩ | ⟨hi', g2, b2, e2⟩
      · exact ⟨rfl, rfl, by rw [e1, e2]⟩
      · omega
      · omega
      · obtain ⟨q1, q2, q3⟩ := h4 _ v w g1 g2
        exact ⟨q1, q2, by rw [e1, e2]; exact q3⟩
    · intro i j v v' w w' hv hv' hw hw'
      rcases gs i v hv with ⟨hi, rfl, -⟩ | ⟨hi, g1, b1, -⟩ <;> rcases gt i w hw with ⟨hi', rfl, -⟩ | ⟨hi', g2, b2, -⟩
      · rcases gs j v' hv' with ⟨hj, rfl, -⟩ | ⟨hj, g1', b1', -⟩ <;> rcases gt j w' hw' with ⟨hj', rfl, -⟩ | ⟨hj', g2', b2', -⟩
        all_goals first | omega | (simp only; omega)
      · omega
      · omega
      · rcases gs j v' hv' with ⟨hj, rfl, -⟩ | ⟨hj, g1', b1', -⟩ <;> rcases gt j w' hw' with ⟨hj', rfl, -⟩ | ⟨hj', g2', b2', -⟩
        · simp only; omega
        · omega
        · omega
        · exact h5 _ _ v v' w w' g1 g1' g2 g2'
  | reinit f fs n =>
    have get : ∀ (u : Store) (i : ℕ) (v : View), ((act u k (.reinit f fs n)).objs k).views[i]? = some v →
        ∃ (r : ℕ) (hr : r < (f (read u k)).length), r = (if i < (f (read u k)).length then i else i - (f (read u k)).length) ∧
          v = ⟨u.next + r, 0, (f (read u k))[r].length⟩ ∧ (act u k (.reinit f fs n)).bufs v.buf = (f (read u k))[r] := by
      intro u i v hv
      simp only [act, setObj, if_true] at hv
      rcases append_get hv with ⟨g1, g2⟩ | ⟨g1, g2⟩
      · obtain ⟨hi, rfl⟩ := freshViews_get g2
        exact ⟨i, hi, by rw [if_pos hi], rfl, alloc_fresh_buf u _ i hi⟩
      · rw [freshViews_length] at g1 g2
        rw [List.getElem?_take] at g2
        split at g2
        · obtain ⟨hi, rfl⟩ := freshViews_get g2
          exact ⟨i - (f (read u k)).length, hi, by rw [if_neg (by omega)], rfl, alloc_fresh_buf u _ _ hi⟩
        · cases g2
    have gs := get s
    have gt := get t
    rw [hread] at gs
    refine ⟨by simp [act, setObj, hread], by simp [act, setObj], by simp [act, setObj, hread, freshViews_length], ?_, ?_⟩
    · intro i v w hv hw
      obtain ⟨r, hr, e1, rfl, e2⟩ := gs i v hv
      obtain ⟨r', hr', e1', rfl, e2'⟩ := gt i w hw
      obtain rfl : r = r' := by omega
      exact ⟨rfl, rfl, by rw [e2, e2']⟩
    · intro i j v v' w w' hv hv' hw hw'
      obtain ⟨r, hr, e1, rfl, -⟩ := gs i v hv
      obtain ⟨q, hq, e2, rfl, -⟩ := gs j v' hv'
      obtain ⟨r', hr', e1', rfl, -⟩ := gt i w hw
      obtain ⟨q', hq', e2', rfl, -⟩ := gt j w' hw'
      simp only
      omega
  | write j i x =>
    rcases hv : (s.objs k).views[j]? with _ | v
    · have hw : (t.objs k).views[j]? = none := by
        rw [List.getElem?_eq_none_iff] at hv ⊢; omega
      simp only [act, hv, hw]
      exact ⟨h1, h2, h3, h4, h5⟩
    · rcases hw : (t.objs k).views[j]? with _ | w
      · rw [List.getElem?_eq_none_iff] at hw
        have := (List.getElem?_eq_some_iff.1 hv).1
        omega
      · obtain ⟨e1, e2, e3⟩ := h4 j v w hv hw
        simp only [act, hv, hw, e1, e2]
        split
        · refine ⟨h1, h2, h3, ?_, h5⟩
          intro a p q hp hq
          obtain ⟨g1, g2, g3⟩ := h4 a p q hp hq
          refine ⟨g1, g2, ?_⟩
          have := h5 a j p v q w hp hv hq hw
          simp only [this, g3]
        · exact ⟨h1, h2, h3, h4, h5⟩

/-! ### The theorems -/

/-- A history of actions, each on one of the objects. -/
noncomputable def history (s : Store) (l : List (ℕ × Act)) : Store := l.foldl (fun s p => act s p.1 p.2) s

theorem history_noninterference (k n : ℕ) (hkn : k ≠ n) (l : List (ℕ × Act)) (hl : ∀ p ∈ l, p.1 = k ∨ p.1 = n) (s t : Store)
    (ha : Apart s k n) (hk : Live s k) (hn : Live s n) (hkt : Live t k) (h : Same k s t) :
    read (history s l) k = read (history t (l.filter fun p => p.1 = k)) k := by
  induction l generalizing s t with
  | nil => exact h.read
  | cons p l ih =>
    have hl' : ∀ q ∈ l, q.1 = k ∨ q.1 = n := fun q hq => hl q (List.mem_cons_of_mem _ hq)
    rcases hl p (by simp) with hp | hp
    · obtain ⟨a1, a2, a3, -, -⟩ := act_apart s n k hkn.symm p.2 ha.symm hn hk
      rw [List.filter_cons, if_pos (by simpa using hp)]
      change read (history (act s p.1 p.2) l) k = read (history (act t p.1 p.2) _) k
      rw [hp]
      exact ih hl' _ _ a1.symm a3 a2 (act_live t k p.2 hkt) (act_same k s t h hk hkt p.2)
    · obtain ⟨a1, a2, a3, a4, a5⟩ := act_apart s k n hkn p.2 ha hk hn
      rw [List.filter_cons, if_neg (by simp [hp, hkn.symm])]
      change read (history (act s p.1 p.2) l) k = _
      rw [hp]
      exact ih hl' _ _ a1 a2 a3 hkt (h.frame a4 a5)

/-- **C50** A copy has the contents of the original and is independent of it: after any later history of trims, convolutions, function applications,
resamplings and in-place sample assignments on either object, in any order, each of the two reads as if only its own actions had taken place. -/
theorem C50_copy_independent (s : Store) (k n : ℕ) (hkn : k ≠ n) (hk : Live s k) (l : List (ℕ × Act)) (hl : ∀ p ∈ l, p.1 = k ∨ p.1 = n) :
    read (deepcopy s k n) n = read s k ∧ read (deepcopy s k n) k = read s k ∧
    read (history (deepcopy s k n) l) k = read (history s (l.filter fun p => p.1 = k)) k ∧
    read (history (deepcopy s k n) l) n = read (history (deepcopy s k n) (l.filter fun p => p.1 = n)) n := by
  obtain ⟨a1, a2, a3⟩ := deepcopy_apart s k n hkn hk
  refine ⟨deepcopy_read s k n, deepcopy_other s k n k hkn hk, ?_, ?_⟩
  · refine history_noninterference k n hkn l hl _ s a1 a2 a3 hk ((Same.refl k s).frame ?_ ?_)
    · simp [deepcopy, setObj, alloc, hkn]
    · intro v hv
      exact alloc_buf s _ _ (hk v hv).1
  · exact history_noninterference n k hkn.symm l (fun p hp => (hl p hp).symm) _ _ a1.symm a3 a2 a3 (Same.refl n _)

/-- Two channels in one buffer, and an attribute that shares the first: object 0 of this store. -/
def demo : Store where
  bufs b := if b = 0 then [1, 2, 3, 4] else []
  next := 1
  objs _ := { views := [⟨0, 0, 2⟩, ⟨0, 2, 4⟩, ⟨0, 0, 2⟩], nch := 2, fs := 1 }

theorem demo_live : Live demo 0 := by
  intro v hv
  simp only [demo, List.mem_cons, List.not_mem_nil, or_false] at hv
  rcases hv with rfl | rfl | rfl <;> simp [demo]

/-- The object is its own alias, the copy is not: after a write to the original the copy still holds the old samples. -/
example : read (history (deepcopy demo 0 1) [(0, .write 0 1 9), (1, .write 1 0 7), (0, .trim 1 2)]) 1
    = read (history (deepcopy demo 0 1) [(1, .write 1 0 7)]) 1 := by
  have := (C50_copy_independent demo 0 1 (by norm_num) demo_live [(0, .write 0 1 9), (1, .write 1 0 7), (0, .trim 1 2)] (by simp)).2.2.2
  simpa using this

/-- **C50** An in-place assignment `x[i] = v` changes sample `i` of that array, and the sample of every other array at the same place of the same buffer
(what an earlier trim or the attributes `W`, `X`, ... share), and nothing else; an index beyond the end changes nothing. -/
theorem C50_write (s : Store) (k : ℕ) (hk : Live s k) (j i : ℕ) (v : ℝ) (w : View) (hw : (s.objs k).views[j]? = some w) :
    (∀ x, (read s k)[j]? = some x → (read (act s k (.write j i v)) k)[j]? = some (x.set i v)) ∧
    (∀ (j' : ℕ) (u : View) (x x' : List ℝ), (s.objs k).views[j']? = some u → (read s k)[j']? = some x → (read (act s k (.write j i v)) k)[j']? = some x' →
      x'.length = x.length ∧ ∀ m, x'[m]? = if u.buf = w.buf ∧ u.lo + m = w.lo + i ∧ i < w.hi - w.lo ∧ m < x.length then some v else x[m]?) := by
  have hro : ∀ (t : Store) (j' : ℕ) (u : View), (t.objs k).views[j']? = some u → (read t k)[j']? = some (content t u) := by
    intro t j' u hu
    simp [read, hu]
  have hobj : ((act s k (.write j i v)).objs k) = s.objs k := by
    simp only [act, hw]
    split <;> rfl
  have key : ∀ (j' : ℕ) (u : View) (x x' : List ℝ), (s.objs k).views[j']? = some u → (read s k)[j']? = some x → (read (act s k (.write j i v)) k)[j']? = some x' →
      x'.length = x.length ∧ ∀ m, x'[m]? = if u.buf = w.buf ∧ u.lo + m = w.lo + i ∧ i < w.hi - w.lo ∧ m < x.length then some v else x[m]? := by
    intro j' u x x' hu hx hx'
    rw [hro s j' u hu] at hx
    rw [hro _ j' u (by rw [hobj]; exact hu)] at hx'
    injection hx with hx
    injection hx' with hx'
    subst hx hx'
    obtain ⟨-, hlo, hhi⟩ := hk u (List.mem_of_getElem? hu)
    by_cases hi : i < w.hi - w.lo
    · have ha : act s k (.write j i v) = { s with bufs := fun b => if b = w.buf then (s.bufs b).set (w.lo + i) v else s.bufs b } := by
        simp only [act, hw, if_pos hi]
      rw [ha]
      by_cases hb : u.buf = w.buf
      · have hb' : ∀ P : Prop, (u.buf = w.buf ∧ P) = P := fun P => by simp [hb]
        simp only [content, if_pos hb, hb']
        refine ⟨by simp, fun m => ?_⟩
        simp only [List.getElem?_drop, List.getElem?_take, List.length_drop, List.length_take, List.getElem?_set]
        by_cases hm : u.lo + m < u.hi
        · rw [if_pos hm, if_pos hm]
          by_cases he : w.lo + i = u.lo + m
          · rw [if_pos he, if_pos (by omega), if_pos ⟨he.symm, hi, by omega⟩]
          · rw [if_neg he, if_neg fun h => he h.1.symm]
        · rw [if_neg hm, if_neg hm, if_neg (by omega)]
      · simp only [content, if_neg hb]
        exact ⟨trivial, fun m => (if_neg fun h => hb h.1).symm⟩
    · have ha : act s k (.write j i v) = s := by simp only [act, hw, if_neg hi]
      rw [ha]
      exact ⟨rfl, fun m => by rw [if_neg fun h => hi h.2.2.1]⟩
  refine ⟨fun x hx => ?_, key⟩
  have hx' := hro _ j w (by rw [hobj]; exact hw : ((act s k (.write j i v)).objs k).views[j]? = some w)
  obtain ⟨h1, h2⟩ := key j w x _ hw hx hx'
  rw [hx']
  congr 1
  refine List.ext_getElem? fun m => ?_
  rw [h2 m, List.getElem?_set]
  have hxl : x.length = w.hi - w.lo := by
    rw [hro s j w hw] at hx
    injection hx with hx
    subst hx
    obtain ⟨-, hlo, hhi⟩ := hk w (List.mem_of_getElem? hw)
    simp only [content, List.length_drop, List.length_take]
    omega
  by_cases he : i = m
  · subst he
    by_cases hi : i < x.length
    · simp [hi, ← hxl]
    · rw [if_neg fun h => hi h.2.2.2, if_pos rfl, if_neg hi, List.getElem?_eq_none (by omega)]
  · rw [if_neg fun h => he (by omega), if_neg he]

/-- C50: in the store above a write to channel 1 changes the second sample of its view, one to channel 0 also shows in the attribute that shares its buffer. -/
example : (read (act demo 0 (.write 1 1 9)) 0)[1]? = some [3, 9] := by
  have := (C50_write demo 0 demo_live 1 1 9 ⟨0, 2, 4⟩ rfl).1 [3, 4] (by simp [read, demo, content])
  simpa using this

example : ∃ x', (read (act demo 0 (.write 0 1 9)) 0)[2]? = some x' ∧ x'[1]? = some 9 := by
  have h2 : (read (act demo 0 (.write 0 1 9)) 0)[2]? = some [1, 9] := by simp [read, act, demo, content]
  refine ⟨_, h2, ?_⟩
  have := ((C50_write demo 0 demo_live 0 1 9 ⟨0, 0, 2⟩ rfl).2 2 ⟨0, 0, 2⟩ [1, 2] _ rfl (by simp [read, demo, content]) h2).2 1
  simp

/-- **C50** `trim_audio(A, start, stop)` leaves `A` as it was and returns an object that shares nothing with it and whose channels hold what
`A.trim(start, stop)` would have left in `A`. -/
theorem C50_trim_audio (s : Store) (k n : ℕ) (hkn : k ≠ n) (hk : Live s k) (start stop : ℝ) (hfs : 0 < (s.objs k).fs) (x : List ℝ) (xs : List (List ℝ))
    (hx : read s k = x :: xs) (h : start * (s.objs k).fs < x.length) :
    ∃ s', trimAudio s k n start stop = (s', none) ∧ read s' k = read s k ∧ Apart s' k n ∧
      read s' n = read (act s k (.trim start stop)) k ∧
      (s'.objs n).views.length = (s.objs k).views.length ∧
      ∀ (i : ℕ) (c : List ℝ), i < (s.objs k).nch → (read s k)[i]? = some c → (read s' n)[i]? = some (cut start stop (s.objs k).fs c) := by
  obtain ⟨a1, a2, a3⟩ := deepcopy_apart s k n hkn hk
  have hr := deepcopy_read s k n
  have ho : (deepcopy s k n).objs n = { s.objs k with views := freshViews s.next (read s k) } := by simp [deepcopy, setObj]
  have key : trimAudio s k n start stop = (act (deepcopy s k n) n (.trim start stop), none) := by
    unfold trimAudio
    simp only [hr, hx, List.getElem?_cons_zero]
    rw [if_pos (by rw [ho, lt_div_iff₀ hfs]; exact h)]
    rfl
  obtain ⟨b1, b2, b3, b4, b5⟩ := act_apart (deepcopy s k n) k n hkn (.trim start stop) a1 a2 a3
  have rd : ∀ (u : Store) (j : ℕ), Live u j → read (act u j (.trim start stop)) j
      = (read u j).mapIdx fun i c => if i < (u.objs j).nch then cut start stop (u.objs j).fs c else c := by
    intro u j hu
    apply List.ext_getElem (by simp [read, act, setObj, cutObj])
    intro i h1 h2
    simp only [read, act, setObj, cutObj, if_true, List.getElem_map, List.getElem_mapIdx]
    have hi : i < (u.objs j).views.length := by simpa [read] using h2
    obtain ⟨-, l0, l1⟩ := hu _ (List.getElem_mem hi)
    split
    · exact content_slice u _ l0 l1 _ _
    · rfl
  refine ⟨_, key, ?_, b1, ?_, ?_, ?_⟩
  · rw [← deepcopy_other s k n k hkn hk, read, read, b4]
    refine List.map_congr_left fun v hv => ?_
    simp only [content, b5 v hv]
  · rw [rd _ _ a3, rd _ _ hk, hr, ho]
  · simp [act, setObj, cutObj, ho, freshViews_length, read]
  · intro i c hi hc
    rw [rd _ _ a3, hr, ho, List.getElem?_mapIdx, hc]
    simp [hi]

example : ∃ s', trimAudio demo 0 1 1 2 = (s', none) ∧ read s' 0 = [[1, 2], [3, 4], [1, 2]] ∧ read s' 1 = [[2], [4], [1, 2]] := by
  have hr : read demo 0 = [[1, 2], [3, 4], [1, 2]] := by simp [read, demo, content]
  obtain ⟨s', h1, h2, -, -, hlen, h3⟩ := C50_trim_audio demo 0 1 (by norm_num) demo_live 1 2 (by norm_num [demo]) _ _ hr (by norm_num [demo])
  have h4 := (C50_trim_audio demo 0 1 (by norm_num) demo_live 1 2 (by norm_num [demo]) _ _ hr (by norm_num [demo]))
  obtain ⟨s'', g1, -, -, g2, -, -⟩ := h4
  rw [h1] at g1; cases g1
  refine ⟨s', h1, by rw [h2, hr], ?_⟩
  have e1 : pyInt (1 : ℝ) = 1 := by norm_num [pyInt]
  have e2 : pyInt (2 : ℝ) = 2 := by norm_num [pyInt]
  rw [g2]
  simp [read, act, setObj, cutObj, demo, content, View.slice, sliceBound, e1, e2]

/-- **C50** A start at or beyond the end is rejected and the original stays as it was. -/
theorem C50_reject (s : Store) (k n : ℕ) (hkn : k ≠ n) (hk : Live s k) (start stop : ℝ) (hfs : 0 < (s.objs k).fs) (x : List ℝ) (xs : List (List ℝ))
    (hx : read s k = x :: xs) (h : (x.length : ℝ) ≤ start * (s.objs k).fs) :
    ∃ s', trimAudio s k n start stop = (s', some .assertionError) ∧ read s' k = read s k := by
  have hr := deepcopy_read s k n
  have ho : (deepcopy s k n).objs n = { s.objs k with views := freshViews s.next (read s k) } := by simp [deepcopy, setObj]
  refine ⟨deepcopy s k n, ?_, deepcopy_other s k n k hkn hk⟩
  unfold trimAudio
  simp only [hr, hx, List.getElem?_cons_zero]
  rw [if_neg (by rw [ho, lt_div_iff₀ hfs]; exact not_lt.2 h)]

example : ∃ s', trimAudio demo 0 1 2 3 = (s', some .assertionError) ∧ read s' 0 = read demo 0 :=
  C50_reject demo 0 1 (by norm_num) demo_live 2 3 (by norm_num [demo]) [1, 2] [[3, 4], [1, 2]] (by simp [read, demo, content]) (by norm_num [demo])

/-- **C50** On values: for every signal whose channels carry the rate of the object, `trim_audio(A, start, stop)` returns what `A.trim(start, stop)` leaves in `A`,
and raises when it raises. -/
theorem C50_values (m : Multi) (start stop : ℝ) (hn : m.channelCount = m.channels.length) (hc : ∀ c ∈ m.channels, c.fs = m.fs) :
    Sig.trimAudio m start stop = match m.trim start (some stop) none with
      | (m', none) => .ok m'
      | (_, some e) => .error e := by
  unfold Sig.trimAudio Multi.trim
  rcases hl : m.len with e | n
  · rfl
  · simp only
    split
    · simp only [trimStop, Multi.loop, loopChannels_ok (fun c => { c with signal := cut start stop c.fs c.signal })]
      rw [if_neg (by omega)]
      congr 2
      apply List.ext_getElem (by simp)
      intro i h1 h2
      have hi : i < m.channels.length := by simpa using h2
      simp only [List.getElem_mapIdx, List.getElem_map]
      rw [if_pos (by omega), hc _ (List.getElem_mem hi)]
    · rfl

example : ∃ m', Sig.trimAudio stereo 1 3 = .ok m' ∧ m'.channels.map Mono.signal = [[2, 3], [5, 6]] := by
  rw [C50_values stereo 1 3 rfl (by simp [stereo]),
    (C47_multi stereo _ _ rfl 1 3 (by norm_num [stereo]) (by simp [stereo]) (by norm_num) (by norm_num)).1 (by norm_num [stereo])]
  exact ⟨_, rfl, by norm_num [stereo]⟩

end Verif.SigHeap
