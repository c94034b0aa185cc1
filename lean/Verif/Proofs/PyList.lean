import Verif.Model.Base

/-!
Lists of results of calls that may raise.
-/

namespace Verif

theorem mapM_entries {α β : Type _} (F : α → Py β) : ∀ (l : List α) (ys : List β), l.mapM F = .ok ys →
    ys.length = l.length ∧ ∀ (i : ℕ) (x : α), l[i]? = some x → ∃ y, F x = .ok y ∧ ys[i]? = some y
  | [], ys, h => by
    have : [] = ys := Except.ok.inj h
    subst this; simp
  | a :: l, ys, h => by
    rw [List.mapM_cons] at h
    rcases ha : F a with e | b
    · rw [ha] at h; cases h
    rcases hl : l.mapM F with e | bs
    · rw [ha, hl] at h; cases h
    rw [ha, hl] at h
    have h : b :: bs = ys := Except.ok.inj h
    subst h
    obtain ⟨h1, h2⟩ := mapM_entries F l bs hl
    refine ⟨by simp [h1], fun i x hx => ?_⟩
    cases i with
    | zero => simp at hx; subst hx; exact ⟨b, ha, by simp⟩
    | succ i => simp only [List.getElem?_cons_succ] at hx ⊢; exact h2 i x hx

theorem mapM_ok_of {α β : Type _} (F : α → Py β) : ∀ (l : List α) (ys : List β), ys.length = l.length →
    (∀ (i : ℕ) (x : α) (y : β), l[i]? = some x → ys[i]? = some y → F x = .ok y) → l.mapM F = .ok ys
  | [], ys, hl, _ => by
    have : ys = [] := List.length_eq_zero_iff.1 hl
    subst this; rfl
  | a :: l, [], hl, _ => by simp at hl
  | a :: l, b :: bs, hl, h => by
    rw [List.mapM_cons, h 0 a b rfl rfl, mapM_ok_of F l bs (by simpa using hl) fun i x y hx hy => h (i + 1) x y (by simpa using hx) (by simpa using hy)]
    rfl

end Verif
