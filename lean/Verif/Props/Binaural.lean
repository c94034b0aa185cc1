import Mathlib.Tactic
import Verif.Proofs.Conv

/-! C45: binaural rendering of Ambisonic signals with `sh2bin`. -/

namespace Verif.Decoder

open Verif.Sig

/-- A matrix of numbers as a numpy array of rank two. -/
def nd2 {K S : ℕ} (x : Fin K → Fin S → ℝ) : NDArray ℝ :=
  ⟨[K, S], (List.ofFn fun k => List.ofFn (x k)).flatten⟩

/-- A numpy array of rank three. -/
def nd3 {c K T : ℕ} (h : Fin c → Fin K → Fin T → ℝ) : NDArray ℝ :=
  ⟨[c, K, T], (List.ofFn fun e => (nd2 (h e)).data).flatten⟩

theorem ndRow_nd2 {K S : ℕ} (x : Fin K → Fin S → ℝ) (k : Fin K) : ndRow (nd2 x).data S k = List.ofFn (x k) := by
  rw [nd2, ndRow_flatten S _ (fun r hr => by
    rw [List.mem_ofFn] at hr
    obtain ⟨k, rfl⟩ := hr
    simp)]
  simp [List.getD_eq_getElem?_getD]

theorem nd2_length {K S : ℕ} (x : Fin K → Fin S → ℝ) : (nd2 x).data.length = K * S := by
  simp [nd2, List.length_flatten, List.map_ofFn, Function.comp_def, List.sum_ofFn]

/-- The output of `sh2bin` for one ear: the sum over the channels of the full linear convolutions. -/
noncomputable def earOut {K S T : ℕ} (x : Fin K → Fin S → ℝ) (h : Fin K → Fin T → ℝ) (n : ℕ) : ℝ :=
  ∑ k : Fin K, ∑ s : Fin S, if hh : (s : ℕ) ≤ n ∧ n - s < T then x k s * h k ⟨n - s, hh.2⟩ else 0

theorem earSum_eq {K S T : ℕ} (hK : 2 ≤ K) (hT : 2 ≤ T) (hS : 1 ≤ S) (x : Fin K → Fin S → ℝ) (h : Fin K → Fin T → ℝ) :
    earSum K S T (nd2 x).data (nd2 h).data = .ok (List.ofFn fun n : Fin (S + T - 1) => earOut x h n) := by
  rw [earSum, if_neg (by omega), if_neg (by omega)]
  congr 1
  apply List.ext_getElem (by simp)
  intro n h1 h2
  rw [List.getElem_map, List.getElem_range, List.getElem_ofFn]
  rw [← Fin.sum_univ_eq_sum_range (fun k => convAt (ndRow (nd2 x).data S k) (ndRow (nd2 h).data T k) n)]
  refine Finset.sum_congr rfl fun k _ => ?_
  rw [ndRow_nd2, ndRow_nd2, convAt_ofFn]

theorem nd3_slices {K T : ℕ} (h : Fin 2 → Fin K → Fin T → ℝ) : (nd3 h).data.take (K * T) = (nd2 (h 0)).data ∧
    ((nd3 h).data.drop (K * T)).take (K * T) = (nd2 (h 1)).data := by
  have h0 := nd2_length (h 0)
  have h1 := nd2_length (h 1)
  have hd : (nd3 h).data = (nd2 (h 0)).data ++ (nd2 (h 1)).data := by simp [nd3, List.ofFn_succ]
  rw [hd]
  constructor
  · rw [List.take_append_of_le_length (by omega), List.take_of_length_le (by omega)]
  · rw [List.drop_append, List.drop_eq_nil_of_le (by omega), h0, Nat.sub_self, List.drop_zero, List.nil_append,
      List.take_of_length_le (by omega)]

/-- **C45** (partial) For two or more channels, two or more taps and a non-empty signal `sh2bin` returns two rows of length `S + T - 1`; row `e` is the
sum over the SH channels of the full linear convolution of the channel with its filter for that ear.
Missing: one channel (order 0) and one-tap filters, where the code raises, see `C45_order_zero_fails` and `C45_one_tap_fails`. -/
theorem C45_convolution_partial {K S T : ℕ} (hK : 2 ≤ K) (hT : 2 ≤ T) (hS : 1 ≤ S) (x : Fin K → Fin S → ℝ)
    (h : Fin 2 → Fin K → Fin T → ℝ) :
    sh2bin (nd2 x) (nd3 h) = .ok [
      List.ofFn fun n : Fin (S + T - 1) =>
        ∑ k : Fin K, ∑ s : Fin S, if hh : (s : ℕ) ≤ n ∧ (n : ℕ) - s < T then x k s * h 0 k ⟨n - s, hh.2⟩ else 0,
      List.ofFn fun n : Fin (S + T - 1) =>
        ∑ k : Fin K, ∑ s : Fin S, if hh : (s : ℕ) ≤ n ∧ (n : ℕ) - s < T then x k s * h 1 k ⟨n - s, hh.2⟩ else 0] := by
  change (if K ≠ K then _ else _) = _
  rw [if_neg (by simp), if_neg (by omega), (nd3_slices h).1, (nd3_slices h).2]
  rw [earSum_eq hK hT hS, earSum_eq hK hT hS]
  rfl

/-- Four channels, a signal of one sample and two taps: the hypotheses of `C45_convolution_partial` hold. -/
example : sh2bin (nd2 (K := 4) (S := 1) fun k _ => if k = 1 then 2 else 0) (nd3 (c := 2) (K := 4) (T := 2) fun e k t => (e : ℕ) + 10 * (k : ℕ) + 100 * (t : ℕ))
    = .ok [[20, 220], [22, 222]] := by
  rw [C45_convolution_partial (by norm_num) (by norm_num) (by norm_num)]
  simp [Fin.sum_univ_succ, List.ofFn_succ]
  norm_num [Fin.ext_iff]

/-- **C45** (partial) The output is linear in the signals and in the filters, for the same sizes. -/
theorem C45_linear_partial {K S T : ℕ} (hK : 2 ≤ K) (hT : 2 ≤ T) (hS : 1 ≤ S) (x y : Fin K → Fin S → ℝ)
    (h g : Fin 2 → Fin K → Fin T → ℝ) (a b : ℝ) :
    ∃ l r l' r' l'' r'' : List ℝ,
      sh2bin (nd2 x) (nd3 h) = .ok [l, r] ∧ sh2bin (nd2 y) (nd3 h) = .ok [l', r'] ∧ sh2bin (nd2 x) (nd3 g) = .ok [l'', r''] ∧
      sh2bin (nd2 fun k s => a * x k s + b * y k s) (nd3 h)
        = .ok [List.zipWith (fun u v => a * u + b * v) l l', List.zipWith (fun u v => a * u + b * v) r r'] ∧
      sh2bin (nd2 x) (nd3 fun e k t => a * h e k t + b * g e k t)
        = .ok [List.zipWith (fun u v => a * u + b * v) l l'', List.zipWith (fun u v => a * u + b * v) r r''] := by
  refine ⟨_, _, _, _, _, _, C45_convolution_partial hK hT hS x h, C45_convolution_partial hK hT hS y h, C45_convolution_partial hK hT hS x g, ?_, ?_⟩
  all_goals
    rw [C45_convolution_partial hK hT hS]
    simp only [zipWith_ofFn, Except.ok.injEq, List.cons.injEq, and_true]
    constructor <;>
    · congr 1
      funext n
      simp only [Finset.mul_sum, ← Finset.sum_add_distrib]
      refine Finset.sum_congr rfl fun k _ => Finset.sum_congr rfl fun s _ => ?_
      split <;> ring

/-- The hypotheses of `C45_linear_partial` with a filter pair that differs between the ears. -/
example : ∃ l r : List ℝ, l ≠ r ∧ sh2bin (nd2 (K := 4) (S := 1) fun _ _ => 1) (nd3 (c := 2) (K := 4) (T := 2) fun e _ _ => (e : ℕ)) = .ok [l, r] := by
  refine ⟨_, _, ?_, C45_convolution_partial (by norm_num) (by norm_num) (by norm_num) _ _⟩
  simp [List.ofFn_succ, Fin.sum_univ_succ]

/-- **C45** Mismatched channel counts and wrong ranks are rejected. -/
theorem C45_reject (sig hrirs : NDArray ℝ) :
    (∀ K S c K' T, sig.shape = [K, S] → hrirs.shape = [c, K', T] → K ≠ K' → sh2bin sig hrirs = .error .assertionError) ∧
    (sig.shape.length ≠ 2 ∨ hrirs.shape.length ≠ 3 → sh2bin sig hrirs = .error .assertionError) := by
  constructor
  · intro K S c K' T h1 h2 h3
    simp [sh2bin, h1, h2, h3]
  · intro h
    unfold sh2bin
    split
    · rename_i h1 h2
      simp [h1, h2] at h
    · rfl

/-- Nine channels against four. -/
example : sh2bin (nd2 (K := 9) (S := 3) fun _ _ => 1) (nd3 (c := 2) (K := 4) (T := 5) fun _ _ _ => 1) = .error .assertionError :=
  (C45_reject _ _).1 9 3 2 4 5 rfl rfl (by norm_num)

/-- **C45** (negative part) An order-0 signal is never rendered: for every one-channel signal and every filter `sh2bin` raises `ValueError`. -/
theorem C45_order_zero_fails {S T : ℕ} (x : Fin 1 → Fin S → ℝ) (h : Fin 2 → Fin 1 → Fin T → ℝ) :
    sh2bin (nd2 x) (nd3 h) = .error .valueError := by
  simp [sh2bin, nd2, nd3, earSum, Except.bind]

/-- **C45** (negative part) Filters of a single tap are never applied. -/
theorem C45_one_tap_fails {K S : ℕ} (x : Fin K → Fin S → ℝ) (h : Fin 2 → Fin K → Fin 1 → ℝ) :
    sh2bin (nd2 x) (nd3 h) = .error .valueError := by
  simp [sh2bin, nd2, nd3, earSum, Except.bind]

/-- A one-channel signal with three samples and five-tap filters; a four-channel signal with gains instead of filters. -/
example : sh2bin (nd2 (K := 1) (S := 3) fun _ _ => 1) (nd3 (c := 2) (K := 1) (T := 5) fun _ _ _ => 1) = .error .valueError ∧
    sh2bin (nd2 (K := 4) (S := 3) fun _ _ => 1) (nd3 (c := 2) (K := 4) (T := 1) fun _ _ _ => 1) = .error .valueError :=
  ⟨C45_order_zero_fails _ _, C45_one_tap_fails _ _⟩

end Verif.Decoder
