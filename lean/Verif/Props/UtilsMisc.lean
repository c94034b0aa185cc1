import Verif.Proofs.Utils

/-! C07, C08, C09: decibels, interleaving, one-dimensional coercion. -/

namespace Verif.Utils
open Real

/-- C07: `from_db(db(x)) == |x|`, for both settings of `power`. -/
theorem C07_fromDb_db (x : ℝ) (p : Bool) (hx : x ≠ 0) : fromDb (db x p) p = |x| := by
  unfold fromDb db
  have h : ∀ c : ℝ, c ≠ 0 → (10 : ℝ) ^ (c * logb 10 |x| / c) = |x| := by
    intro c hc
    rw [mul_div_cancel_left₀ _ hc, Real.rpow_logb (by norm_num) (by norm_num) (abs_pos.2 hx)]
  cases p
  · exact h 20 (by norm_num)
  · exact h 10 (by norm_num)

example : fromDb (db (-3) true) true = 3 := by
  rw [C07_fromDb_db _ _ (by norm_num)]; norm_num

/-- C07: `db(from_db(y)) == y`. -/
theorem C07_db_fromDb (y : ℝ) (p : Bool) : db (fromDb y p) p = y := by
  unfold fromDb db
  have h : ∀ c : ℝ, c ≠ 0 → c * logb 10 |(10 : ℝ) ^ (y / c)| = y := by
    intro c hc
    rw [abs_of_pos (by positivity), Real.logb_rpow (by norm_num) (by norm_num)]
    field_simp
  cases p
  · exact h 20 (by norm_num)
  · exact h 10 (by norm_num)

/-- C07: levels add over products and are strictly monotone in magnitude; a factor 10 is 20 dB (10 dB for powers). -/
theorem C07_laws (x y : ℝ) (p : Bool) (hx : x ≠ 0) (hy : y ≠ 0) :
    db (x * y) p = db x p + db y p ∧ (|x| < |y| → db x p < db y p) ∧
    db 10 false = 20 ∧ db 10 true = 10 := by
  refine ⟨?_, ?_, ?_, ?_⟩
  · unfold db
    rw [abs_mul, Real.logb_mul (abs_ne_zero.2 hx) (abs_ne_zero.2 hy)]; ring
  · intro h
    unfold db
    have := (Real.logb_lt_logb_iff (b := 10) (by norm_num) (abs_pos.2 hx) (abs_pos.2 hy)).2 h
    cases p <;> simp only [if_true, Bool.false_eq_true, if_false] <;> linarith
  · simp [db]
  · simp [db]

example : (2 : ℝ) ≠ 0 ∧ (-5 : ℝ) ≠ 0 := by norm_num

/-- Even rows of a list: `out[0::2]`. -/
def evens {β : Type _} : List β → List β
  | [] => []
  | [a] => [a]
  | a :: _ :: l => a :: evens l

/-- Odd rows of a list: `out[1::2]`. -/
def odds {β : Type _} : List β → List β
  | [] => []
  | [_] => []
  | _ :: b :: l => b :: odds l

theorem setOddRows_repeat {β : Type _} : ∀ (l r : List β), l.length = r.length →
    setOddRows (repeatRows l) r = (List.zipWith (fun a b => [a, b]) l r).flatten
  | [], [], _ => rfl
  | a :: l, b :: r, h => by
    have ih := setOddRows_repeat l r (by simpa using h)
    simp only [setOddRows, repeatRows] at ih ⊢
    simp only [List.flatMap_cons, List.cons_append, List.nil_append, List.mapIdx_cons, List.zipWith_cons_cons,
      List.flatten_cons]
    congr 1
    congr 1
    rw [← ih]
    apply List.ext_getElem?
    intro i
    simp only [List.getElem?_mapIdx]
    have h1 : (i + 1 + 1) % 2 = i % 2 := by omega
    have h2 : (i + 1 + 1) / 2 = i / 2 + 1 := by omega
    simp [h1, h2]
  | [], _ :: _, h => by simp at h
  | _ :: _, [], h => by simp at h

/-- C08: with equal shapes the result has `2n` rows; row `2i` is `left[i]`, row `2i+1` is `right[i]`. -/
theorem C08_rows {α : Type _} (left right : Arr2 α) (ssr : Bool) (h : left.shape = right.shape)
    (hs : ssr = true → left.rows.length = 360) :
    ∃ out, interleaveChannels left right ssr = .ok out ∧ out.cols = left.cols ∧
      out.rows.length = 2 * left.rows.length ∧
      (∀ i, i < left.rows.length → out.rows[2 * i]? = left.rows[i]? ∧ out.rows[2 * i + 1]? = right.rows[i]?) := by
  have hlen : left.rows.length = right.rows.length := congrArg Prod.fst h
  refine ⟨⟨left.cols, setOddRows (repeatRows left.rows) right.rows⟩, ?_, rfl, ?_, ?_⟩
  · unfold interleaveChannels
    rw [if_neg (not_not.2 h), if_neg]
    intro hh
    exact hh.2 (hs hh.1)
  · simp [setOddRows, repeatRows]; omega
  · intro i hi
    have key : ∀ (l r : List (List α)) (i : ℕ), l.length = r.length → i < l.length →
        (List.zipWith (fun a b => [a, b]) l r).flatten[2 * i]? = l[i]? ∧
        (List.zipWith (fun a b => [a, b]) l r).flatten[2 * i + 1]? = r[i]? := by
      intro l
      induction l with
      | nil => intro r i _ hi; simp at hi
      | cons a l ih =>
        intro r i hr hi
        match r, hr with
        | b :: r, hr =>
          cases i with
          | zero => simp
          | succ i =>
            have := ih r i (by simpa using hr) (by simpa using hi)
            have e1 : 2 * (i + 1) = 2 * i + 1 + 1 := by ring
            simp only [List.zipWith_cons_cons, List.flatten_cons, List.cons_append, List.nil_append, e1,
              List.getElem?_cons_succ]
            exact this
    rw [setOddRows_repeat _ _ hlen]
    exact key _ _ i hlen hi

/-- C08: taking every other row recovers both inputs. -/
theorem C08_lossless {α : Type _} (left right out : Arr2 α) (ssr : Bool)
    (h : interleaveChannels left right ssr = .ok out) : evens out.rows = left.rows ∧ odds out.rows = right.rows := by
  unfold interleaveChannels at h
  split_ifs at h with h1 h2
  have hlen : left.rows.length = right.rows.length := congrArg Prod.fst h1
  injection h with h
  subst h
  simp only
  rw [setOddRows_repeat _ _ hlen]
  have key : ∀ (l r : List (List α)), l.length = r.length →
      evens (List.zipWith (fun a b => [a, b]) l r).flatten = l ∧
      odds (List.zipWith (fun a b => [a, b]) l r).flatten = r := by
    intro l
    induction l with
    | nil => intro r hr; cases r with | nil => exact ⟨rfl, rfl⟩ | cons _ _ => simp at hr
    | cons a l ih =>
      intro r hr
      match r, hr with
      | b :: r, hr =>
        have := ih r (by simpa using hr)
        simp [evens, odds, this.1, this.2]
  exact key _ _ hlen

/-- C08: errors: different shapes, or SSR style without exactly 360 channels. -/
theorem C08_errors {α : Type _} (left right : Arr2 α) (ssr : Bool) :
    interleaveChannels left right ssr = .error .valueError ↔
      (left.shape ≠ right.shape ∨ (ssr = true ∧ left.rows.length ≠ 360)) := by
  unfold interleaveChannels
  by_cases h1 : left.shape = right.shape
  · rw [if_neg (not_not.2 h1)]
    by_cases h2 : ssr = true ∧ ¬ left.shape.1 = 360
    · rw [if_pos h2]
      simp only [true_iff]; exact Or.inr h2
    · rw [if_neg h2]
      simp only [false_iff, reduceCtorEq]
      rintro (h | h)
      · exact h h1
      · exact h2 h
  · rw [if_pos h1]
    simp [h1]

example : interleaveChannels (α := ℕ) ⟨1, [[1], [2]]⟩ ⟨1, [[3], [4]]⟩ = .ok ⟨1, [[1], [3], [2], [4]]⟩ := by rfl

/-- Specification: the dimensions different from 1. -/
def nonSingleton (shape : List ℕ) : ℕ := (shape.filter (fun d => d ≠ 1)).length

/-- C09: `asarray_1d` succeeds exactly when at most one dimension differs from 1; the error is `ValueError`. -/
theorem C09_accepts_iff {α : Type _} (a : NDArray α) :
    ((∃ r, asarray1d a = .ok r) ↔ nonSingleton a.shape ≤ 1) ∧
    (¬ nonSingleton a.shape ≤ 1 → asarray1d a = .error .valueError) := by
  unfold asarray1d nonSingleton NDArray.squeeze
  simp only
  split_ifs with h0 h1
  · exact ⟨⟨fun _ => by omega, fun _ => ⟨_, rfl⟩⟩, fun h => by omega⟩
  · exact ⟨⟨fun ⟨_, h⟩ => h.elim, fun h => by omega⟩, fun _ => rfl⟩
  · exact ⟨⟨fun _ => by omega, fun _ => ⟨_, rfl⟩⟩, fun h => by omega⟩

theorem prod_filter_ne_one : ∀ l : List ℕ, (l.filter (fun d => d ≠ 1)).prod = l.prod
  | [] => rfl
  | d :: l => by
    have := prod_filter_ne_one l
    by_cases hd : d = 1
    · subst hd; simpa using this
    · simp only [List.filter_cons, hd, ne_eq, not_false_eq_true, decide_true, if_true, List.prod_cons]
      rw [← this]

/-- C09: the result is one-dimensional, contains all elements in order (its length is their number), and coercing again
changes nothing. -/
theorem C09_result {α : Type _} (a r : NDArray α) (hw : a.WF) (h : asarray1d a = .ok r) :
    r.data = a.data ∧ r.shape = [a.data.length] ∧ asarray1d r = .ok r := by
  have hp := prod_filter_ne_one a.shape
  unfold NDArray.WF at hw
  have key : r.data = a.data ∧ r.shape = [a.data.length] := by
    unfold asarray1d NDArray.squeeze at h
    simp only at h
    split_ifs at h with h0 h1
    · injection h with h; subst h
      rw [List.length_eq_zero_iff.1 h0] at hp
      simp at hp
      exact ⟨rfl, by rw [hw, ← hp]⟩
    · injection h with h; subst h
      obtain ⟨d, hd⟩ : ∃ d, a.shape.filter (fun d => d ≠ 1) = [d] := by
        apply List.length_eq_one_iff.1; omega
      rw [hd] at hp
      refine ⟨rfl, ?_⟩
      simp only [hd]
      rw [hw, ← hp]; simp
  refine ⟨key.1, key.2, ?_⟩
  obtain ⟨shape, data⟩ := r
  simp only at key
  obtain ⟨rfl, rfl⟩ := key
  unfold asarray1d NDArray.squeeze
  by_cases h1 : a.data.length = 1
  · simp [h1]
  · simp [h1]

example : asarray1d (⟨[1, 3, 1], [7, 8, 9]⟩ : NDArray ℕ) = .ok ⟨[3], [7, 8, 9]⟩ ∧
    asarray1d (⟨[], [7]⟩ : NDArray ℕ) = .ok ⟨[1], [7]⟩ ∧
    asarray1d (⟨[2, 2], [1, 2, 3, 4]⟩ : NDArray ℕ) = .error .valueError := by
  refine ⟨rfl, rfl, rfl⟩

/-- `C08_rows`, `C08_lossless`: two channels of two samples. -/
example : ∃ out, interleaveChannels (α := ℕ) ⟨2, [[1, 5], [2, 6]]⟩ ⟨2, [[3, 7], [4, 8]]⟩ false = .ok out ∧ out.rows.length = 4 ∧
    evens out.rows = [[1, 5], [2, 6]] := by
  obtain ⟨out, h, -, h1, -⟩ := C08_rows (α := ℕ) ⟨2, [[1, 5], [2, 6]]⟩ ⟨2, [[3, 7], [4, 8]]⟩ false rfl (by simp)
  exact ⟨out, h, h1, (C08_lossless _ _ out false h).1⟩

end Verif.Utils
