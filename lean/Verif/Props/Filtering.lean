import Verif.Props.SdmAlgebra
import Verif.Props.Binaural
import Verif.Props.SignalConv
import Verif.Props.SignalBasics
import Verif.Props.ShRotation

/-! Filters in sequence and filters around a rendering: C157. -/

namespace Verif.Props

open Verif.Utils Verif.Decoder Verif.Sph Verif.Sig Verif.Parsa PowerSeries Finset Real

theorem conv_ne_nil {x h : List ℝ} (hx : x ≠ []) (hh : h ≠ []) : convFull x h ≠ [] := by
  have h1 : 1 ≤ x.length := List.length_pos_of_ne_nil hx
  have h2 : 1 ≤ h.length := List.length_pos_of_ne_nil hh
  intro h0
  have := congrArg List.length h0
  rw [convFull_length, List.length_nil] at this
  omega

theorem convolve_ok {x h : List ℝ} (hx : x ≠ []) (hh : h ≠ []) : convolve .full x h = .ok (convFull x h) := by
  unfold convolve
  rw [if_neg (by simp [hx, hh])]
  rfl

theorem conv_assoc {x g h : List ℝ} (hx : x ≠ []) (hg : g ≠ []) (hh : h ≠ []) : convFull (convFull x g) h = convFull x (convFull g h) := by
  have h1 : 1 ≤ x.length := List.length_pos_of_ne_nil hx
  have h2 : 1 ≤ g.length := List.length_pos_of_ne_nil hg
  have h3 : 1 ≤ h.length := List.length_pos_of_ne_nil hh
  refine zSeries_ext (by simp only [convFull_length]; omega) ?_
  rw [zSeries_conv _ _ (conv_ne_nil hx hg) hh, zSeries_conv _ _ hx hg, zSeries_conv _ _ hx (conv_ne_nil hg hh), zSeries_conv _ _ hg hh, mul_assoc]

theorem conv_comm {x h : List ℝ} (hx : x ≠ []) (hh : h ≠ []) : convFull x h = convFull h x := by
  refine zSeries_ext (by simp only [convFull_length]; omega) ?_
  rw [zSeries_conv _ _ hx hh, zSeries_conv _ _ hh hx, mul_comm]

/-- **C157** Two filters one after the other act as one, their convolution, and their order does not matter. A unit impulse changes nothing. -/
theorem C157_mono (m : Mono) (g h : List ℝ) (hx : m.signal ≠ []) (hg : g ≠ []) (hh : h ≠ []) :
    ∃ f m', convolve .full g h = .ok f ∧ (m.conv .full ⟨[g.length], g⟩).bind (·.conv .full ⟨[h.length], h⟩) = .ok m' ∧
      (m.conv .full ⟨[h.length], h⟩).bind (·.conv .full ⟨[g.length], g⟩) = .ok m' ∧ m.conv .full ⟨[f.length], f⟩ = .ok m' ∧ m'.fs = m.fs ∧
      m.conv .full ⟨[1], [1]⟩ = .ok m := by
  have key : ∀ (m : Mono) (g : List ℝ), m.signal ≠ [] → g ≠ [] → m.conv .full ⟨[g.length], g⟩ = .ok { m with signal := convFull m.signal g } := by
    intro m g hm hg
    obtain ⟨s, hs⟩ := asarray1d_vec g
    unfold Mono.conv
    rw [hs]
    show (convolve .full m.signal g).map _ = _
    rw [convolve_ok hm hg]
    rfl
  refine ⟨convFull g h, { m with signal := convFull (convFull m.signal g) h }, convolve_ok hg hh, ?_, ?_, ?_, rfl, ?_⟩
  · rw [key m g hx hg]
    exact key _ h (conv_ne_nil hx hg) hh
  · rw [key m h hx hh]
    refine (key _ g (conv_ne_nil hx hh) hg).trans ?_
    simp only
    rw [conv_assoc hx hh hg, conv_comm hh hg, conv_assoc hx hg hh]
  · rw [key m _ hx (conv_ne_nil hg hh), conv_assoc hx hg hh]
  · refine (key m [1] hx (by simp)).trans ?_
    congr 1
    have : convFull m.signal [1] = m.signal := by
      refine zSeries_ext (by simp [convFull_length]) ?_
      rw [zSeries_conv _ _ hx (by simp), zSeries_cons]
      have : zSeries [] = 0 := by ext n; simp [zSeries]
      rw [this]
      simp
    rw [this]

example : ∃ m' : Mono, (Mono.conv ⟨[1, 2, 3], 48000⟩ .full ⟨[2], [1, 1]⟩).bind (·.conv .full ⟨[3], [0, 0, 2]⟩) = .ok m' ∧
    (Mono.conv ⟨[1, 2, 3], 48000⟩ .full ⟨[3], [0, 0, 2]⟩).bind (·.conv .full ⟨[2], [1, 1]⟩) = .ok m' := by
  obtain ⟨f, m', -, h1, h2, -⟩ := C157_mono ⟨[1, 2, 3], 48000⟩ [1, 1] [0, 0, 2] (by simp) (by simp) (by simp)
  exact ⟨m', h1, h2⟩

/-- The array with the rows `x`. -/
def stacked {K : ℕ} (S : ℕ) (x : Fin K → List ℝ) : NDArray ℝ := ⟨[K, S], (List.ofFn x).flatten⟩

/-- The array of the filters of two ears. -/
def stacked2 {K : ℕ} (T : ℕ) (l r : Fin K → List ℝ) : NDArray ℝ := ⟨[2, K, T], (List.ofFn l).flatten ++ (List.ofFn r).flatten⟩

theorem ndRow_ofFn {K S : ℕ} (x : Fin K → List ℝ) (hx : ∀ k, (x k).length = S) (k : Fin K) : ndRow (List.ofFn x).flatten S k = x k := by
  rw [ndRow_flatten S _ (fun r hr => by
    rw [List.mem_ofFn] at hr
    obtain ⟨k, rfl⟩ := hr
    exact hx k)]
  simp [List.getD_eq_getElem?_getD]

theorem flatten_length {K S : ℕ} (x : Fin K → List ℝ) (hx : ∀ k, (x k).length = S) : (List.ofFn x).flatten.length = K * S := by
  simp [List.length_flatten, List.map_ofFn, Function.comp_def, List.sum_ofFn, hx]

/-- One ear, as a power series. -/
theorem ear_series {K S T : ℕ} (hK : 2 ≤ K) (hT : 2 ≤ T) (hS : 1 ≤ S) (x h : Fin K → List ℝ) (hx : ∀ k, (x k).length = S) (hh : ∀ k, (h k).length = T) :
    ∃ y, earSum K S T (List.ofFn x).flatten (List.ofFn h).flatten = .ok y ∧ y.length = S + T - 1 ∧ zSeries y = ∑ k, zSeries (x k) * zSeries (h k) := by
  refine ⟨_, by rw [earSum, if_neg (by omega), if_neg (by omega)], by simp, ?_⟩
  have hxn : ∀ k, x k ≠ [] := fun k h0 => by have := hx k; rw [h0, List.length_nil] at this; omega
  have hhn : ∀ k, h k ≠ [] := fun k h0 => by have := hh k; rw [h0, List.length_nil] at this; omega
  have e : ∀ k, zSeries (x k) * zSeries (h k) = zSeries (convFull (x k) (h k)) := fun k => (zSeries_conv _ _ (hxn k) (hhn k)).symm
  simp only [e]
  ext n
  rw [map_sum]
  simp only [zSeries, coeff_mk, convFull_getD]
  rcases lt_or_ge n (S + T - 1) with hn | hn
  · rw [List.getD_eq_getElem?_getD, List.getElem?_map, List.getElem?_range hn]
    show ∑ k ∈ Finset.range K, convAt (ndRow (List.ofFn x).flatten S k) (ndRow (List.ofFn h).flatten T k) n = _
    rw [← Fin.sum_univ_eq_sum_range (fun k => convAt (ndRow (List.ofFn x).flatten S k) (ndRow (List.ofFn h).flatten T k) n)]
    exact Finset.sum_congr rfl fun k _ => by rw [ndRow_ofFn x hx, ndRow_ofFn h hh]
  · rw [getD_out (by simpa using hn)]
    exact (Finset.sum_eq_zero fun k _ => convAt_out _ _ _ (by rw [hx, hh]; exact hn)).symm

theorem sh2bin_series {K S T : ℕ} (hK : 2 ≤ K) (hT : 2 ≤ T) (hS : 1 ≤ S) (x hl hr : Fin K → List ℝ) (hx : ∀ k, (x k).length = S)
    (h1 : ∀ k, (hl k).length = T) (h2 : ∀ k, (hr k).length = T) :
    ∃ l r, sh2bin (stacked S x) (stacked2 T hl hr) = .ok [l, r] ∧ l.length = S + T - 1 ∧ r.length = S + T - 1 ∧
      zSeries l = ∑ k, zSeries (x k) * zSeries (hl k) ∧ zSeries r = ∑ k, zSeries (x k) * zSeries (hr k) := by
  obtain ⟨l, l1, l2, l3⟩ := ear_series hK hT hS x hl hx h1
  obtain ⟨r, r1, r2, r3⟩ := ear_series hK hT hS x hr hx h2
  refine ⟨l, r, ?_, l2, r2, l3, r3⟩
  have f1 := flatten_length hl h1
  have f2 := flatten_length hr h2
  have e1 : ((stacked2 T hl hr).data.take (K * T)) = (List.ofFn hl).flatten := by
    show ((List.ofFn hl).flatten ++ (List.ofFn hr).flatten).take (K * T) = _
    rw [List.take_append_of_le_length (by omega), List.take_of_length_le (by omega)]
  have e2 : (((stacked2 T hl hr).data.drop (K * T)).take (K * T)) = (List.ofFn hr).flatten := by
    show (((List.ofFn hl).flatten ++ (List.ofFn hr).flatten).drop (K * T)).take (K * T) = _
    rw [List.drop_append, List.drop_eq_nil_of_le (by omega), f1, Nat.sub_self, List.drop_zero, List.nil_append, List.take_of_length_le (by omega)]
  unfold sh2bin
  simp only [stacked, stacked2] at e1 e2 ⊢
  rw [if_neg (by simp), if_neg (by norm_num), e1, l1]
  simp only [Except.bind, lt_irrefl, if_false]
  rw [e2, r1]
  rfl

/-- **C157** Filtering all Ambisonic channels, filtering all responses, and filtering the two ear signals of `sh2bin` are the same. -/
theorem C157_sh2bin {K S T : ℕ} (hK : 2 ≤ K) (hT : 2 ≤ T) (hS : 1 ≤ S) (x hl hr : Fin K → List ℝ) (hx : ∀ k, (x k).length = S)
    (h1 : ∀ k, (hl k).length = T) (h2 : ∀ k, (hr k).length = T) (f : List ℝ) (hf : f ≠ []) (x' hl' hr' : Fin K → List ℝ)
    (ex : ∀ k, convolve .full (x k) f = .ok (x' k)) (el : ∀ k, convolve .full (hl k) f = .ok (hl' k)) (er : ∀ k, convolve .full (hr k) f = .ok (hr' k)) :
    ∃ l r l' r', sh2bin (stacked S x) (stacked2 T hl hr) = .ok [l, r] ∧ convolve .full l f = .ok l' ∧ convolve .full r f = .ok r' ∧
      sh2bin (stacked (S + f.length - 1) x') (stacked2 T hl hr) = .ok [l', r'] ∧
      sh2bin (stacked S x) (stacked2 (T + f.length - 1) hl' hr') = .ok [l', r'] := by
  have hne : ∀ {n : ℕ} {y : List ℝ}, y.length = n → 1 ≤ n → y ≠ [] := by
    intro n y hy hn h0
    rw [h0, List.length_nil] at hy
    omega
  have hfl : 1 ≤ f.length := List.length_pos_of_ne_nil hf
  have gx : ∀ k, x' k = convFull (x k) f := fun k => (Except.ok.inj ((convolve_ok (hne (hx k) hS) hf).symm.trans (ex k))).symm
  have gl : ∀ k, hl' k = convFull (hl k) f := fun k => (Except.ok.inj ((convolve_ok (hne (h1 k) (by omega)) hf).symm.trans (el k))).symm
  have gr : ∀ k, hr' k = convFull (hr k) f := fun k => (Except.ok.inj ((convolve_ok (hne (h2 k) (by omega)) hf).symm.trans (er k))).symm
  obtain ⟨l, r, a1, a2, a3, a4, a5⟩ := sh2bin_series hK hT hS x hl hr hx h1 h2
  obtain ⟨l', r', b1, b2, b3, b4, b5⟩ := sh2bin_series hK hT (S := S + f.length - 1) (by omega) x' hl hr (fun k => by rw [gx, convFull_length, hx]) h1 h2
  obtain ⟨l'', r'', c1, c2, c3, c4, c5⟩ := sh2bin_series hK (T := T + f.length - 1) (by omega) hS x hl' hr' hx (fun k => by rw [gl, convFull_length, h1])
    (fun k => by rw [gr, convFull_length, h2])
  have zx : ∀ k, zSeries (x' k) = zSeries (x k) * zSeries f := fun k => by rw [gx, zSeries_conv _ _ (hne (hx k) hS) hf]
  have zl : ∀ k, zSeries (hl' k) = zSeries (hl k) * zSeries f := fun k => by rw [gl, zSeries_conv _ _ (hne (h1 k) (by omega)) hf]
  have zr : ∀ k, zSeries (hr' k) = zSeries (hr k) * zSeries f := fun k => by rw [gr, zSeries_conv _ _ (hne (h2 k) (by omega)) hf]
  have hln : l ≠ [] := hne a2 (by omega)
  have hrn : r ≠ [] := hne a3 (by omega)
  have e1 : l' = convFull l f := zSeries_ext (by rw [b2, convFull_length, a2]; omega) (by
    rw [b4, zSeries_conv _ _ hln hf, a4, Finset.sum_mul]
    exact Finset.sum_congr rfl fun k _ => by rw [zx]; ring)
  have e2 : r' = convFull r f := zSeries_ext (by rw [b3, convFull_length, a3]; omega) (by
    rw [b5, zSeries_conv _ _ hrn hf, a5, Finset.sum_mul]
    exact Finset.sum_congr rfl fun k _ => by rw [zx]; ring)
  have e3 : l'' = convFull l f := zSeries_ext (by rw [c2, convFull_length, a2]; omega) (by
    rw [c4, zSeries_conv _ _ hln hf, a4, Finset.sum_mul]
    exact Finset.sum_congr rfl fun k _ => by rw [zl]; ring)
  have e4 : r'' = convFull r f := zSeries_ext (by rw [c3, convFull_length, a3]; omega) (by
    rw [c5, zSeries_conv _ _ hrn hf, a5, Finset.sum_mul]
    exact Finset.sum_congr rfl fun k _ => by rw [zr]; ring)
  exact ⟨l, r, l', r', a1, by rw [e1]; exact convolve_ok hln hf, by rw [e2]; exact convolve_ok hrn hf, b1, by rw [c1, e1, e2, e3, e4]⟩

example : ∃ l r l' r', sh2bin (stacked 2 ![[1, 2], [3, 4], [5, 6], [7, 8]]) (stacked2 2 ![[1, 0], [0, 1], [1, 1], [2, 1]] ![[0, 1], [1, 0], [1, 2], [0, 3]]) = .ok [l, r] ∧
    convolve .full l [1, 1] = .ok l' ∧ convolve .full r [1, 1] = .ok r' ∧
    sh2bin (stacked 3 fun k => convFull (![[1, 2], [3, 4], [5, 6], [7, 8]] k) [1, 1]) (stacked2 2 ![[1, 0], [0, 1], [1, 1], [2, 1]] ![[0, 1], [1, 0], [1, 2], [0, 3]]) = .ok [l', r'] := by
  have hlen : ∀ (v : Fin 4 → List ℝ), (∀ k, v k ≠ []) → ∀ k, convolve .full (v k) [1, 1] = .ok (convFull (v k) [1, 1]) := fun v hv k => convolve_ok (hv k) (by simp)
  obtain ⟨l, r, l', r', h1, h2, h3, h4, -⟩ := C157_sh2bin (K := 4) (S := 2) (T := 2) (by norm_num) (by norm_num) (by norm_num) ![[1, 2], [3, 4], [5, 6], [7, 8]]
    ![[1, 0], [0, 1], [1, 1], [2, 1]] ![[0, 1], [1, 0], [1, 2], [0, 3]] (by intro k; fin_cases k <;> rfl) (by intro k; fin_cases k <;> rfl)
    (by intro k; fin_cases k <;> rfl) [1, 1] (by simp) _ _ _ (hlen _ (by intro k; fin_cases k <;> simp)) (hlen _ (by intro k; fin_cases k <;> simp))
    (hlen _ (by intro k; fin_cases k <;> simp))
  exact ⟨l, r, l', r', h1, h2, h3, h4⟩

theorem zSeries_zeros (D : ℕ) (x : List ℝ) : zSeries (List.replicate D 0 ++ x) = X ^ D * zSeries x ∧ zSeries (x ++ List.replicate D 0) = zSeries x := by
  have h0 : ∀ D, zSeries (List.replicate D (0 : ℝ)) = 0 := by
    intro D
    ext n
    simp only [zSeries, coeff_mk, map_zero, List.getD_eq_getElem?_getD, List.getElem?_replicate]
    split_ifs <;> rfl
  exact ⟨by rw [zSeries_append, h0, zero_add, List.length_replicate], by rw [zSeries_append, h0, mul_zero, add_zero]⟩

theorem zSeries_add {x y : List ℝ} (h : x.length = y.length) : zSeries (List.zipWith (· + ·) x y) = zSeries x + zSeries y := by
  ext n
  rw [map_add]
  simp only [zSeries, coeff_mk]
  rcases lt_or_ge n x.length with hn | hn
  · have hn' : n < y.length := by omega
    simp [List.getD_eq_getElem?_getD, List.getElem?_zipWith, hn, hn']
  · rw [getD_out (by simp; omega), getD_out hn, getD_out (h ▸ hn), add_zero]

/-- **C157** `sh2bin` is time invariant (silence before the signals delays the ear signals, silence after them is appended), and consecutive blocks
overlap and add to the result for the whole signals. -/
theorem C157_blocks {K m n T : ℕ} (hK : 2 ≤ K) (hT : 2 ≤ T) (hm : 1 ≤ m) (hn : 1 ≤ n) (x y hl hr : Fin K → List ℝ) (hx : ∀ k, (x k).length = m)
    (hy : ∀ k, (y k).length = n) (h1 : ∀ k, (hl k).length = T) (h2 : ∀ k, (hr k).length = T) (D : ℕ) :
    ∃ lx rx ly ry, sh2bin (stacked m x) (stacked2 T hl hr) = .ok [lx, rx] ∧ sh2bin (stacked n y) (stacked2 T hl hr) = .ok [ly, ry] ∧
      sh2bin (stacked (D + m) fun k => List.replicate D 0 ++ x k) (stacked2 T hl hr) = .ok [List.replicate D 0 ++ lx, List.replicate D 0 ++ rx] ∧
      sh2bin (stacked (m + D) fun k => x k ++ List.replicate D 0) (stacked2 T hl hr) = .ok [lx ++ List.replicate D 0, rx ++ List.replicate D 0] ∧
      sh2bin (stacked (m + n) fun k => x k ++ y k) (stacked2 T hl hr)
        = .ok [List.zipWith (· + ·) (lx ++ List.replicate n 0) (List.replicate m 0 ++ ly), List.zipWith (· + ·) (rx ++ List.replicate n 0) (List.replicate m 0 ++ ry)] := by
  obtain ⟨lx, rx, a1, a2, a3, a4, a5⟩ := sh2bin_series hK hT hm x hl hr hx h1 h2
  obtain ⟨ly, ry, b1, b2, b3, b4, b5⟩ := sh2bin_series hK hT hn y hl hr hy h1 h2
  obtain ⟨lz, rz, c1, c2, c3, c4, c5⟩ := sh2bin_series hK hT (S := D + m) (by omega) (fun k => List.replicate D 0 ++ x k) hl hr (fun k => by simp [hx]) h1 h2
  obtain ⟨lv, rv, d1, d2, d3, d4, d5⟩ := sh2bin_series hK hT (S := m + D) (by omega) (fun k => x k ++ List.replicate D 0) hl hr (fun k => by simp [hx]) h1 h2
  obtain ⟨lw, rw_, e1, e2, e3, e4, e5⟩ := sh2bin_series hK hT (S := m + n) (by omega) (fun k => x k ++ y k) hl hr (fun k => by simp [hx, hy]) h1 h2
  refine ⟨lx, rx, ly, ry, a1, b1, ?_, ?_, ?_⟩
  · have g1 : lz = List.replicate D 0 ++ lx := zSeries_ext (by rw [c2, List.length_append, List.length_replicate, a2]; omega) (by
      rw [c4, (zSeries_zeros D lx).1, a4, Finset.mul_sum]
      exact Finset.sum_congr rfl fun k _ => by rw [(zSeries_zeros D _).1, mul_assoc])
    have g2 : rz = List.replicate D 0 ++ rx := zSeries_ext (by rw [c3, List.length_append, List.length_replicate, a3]; omega) (by
      rw [c5, (zSeries_zeros D rx).1, a5, Finset.mul_sum]
      exact Finset.sum_congr rfl fun k _ => by rw [(zSeries_zeros D _).1, mul_assoc])
    rw [c1, g1, g2]
  · have g1 : lv = lx ++ List.replicate D 0 := zSeries_ext (by rw [d2, List.length_append, List.length_replicate, a2]; omega) (by
      rw [d4, (zSeries_zeros D lx).2, a4]
      exact Finset.sum_congr rfl fun k _ => by rw [(zSeries_zeros D _).2])
    have g2 : rv = rx ++ List.replicate D 0 := zSeries_ext (by rw [d3, List.length_append, List.length_replicate, a3]; omega) (by
      rw [d5, (zSeries_zeros D rx).2, a5]
      exact Finset.sum_congr rfl fun k _ => by rw [(zSeries_zeros D _).2])
    rw [d1, g1, g2]
  · have key : ∀ (o ox oy : List ℝ) (h : Fin K → List ℝ), o.length = m + n + T - 1 → ox.length = m + T - 1 → oy.length = n + T - 1 →
        zSeries o = ∑ k, zSeries (x k ++ y k) * zSeries (h k) → zSeries ox = ∑ k, zSeries (x k) * zSeries (h k) → zSeries oy = ∑ k, zSeries (y k) * zSeries (h k) →
        o = List.zipWith (· + ·) (ox ++ List.replicate n 0) (List.replicate m 0 ++ oy) := by
      intro o ox oy h l1 l2 l3 s1 s2 s3
      have hlen : (ox ++ List.replicate n (0 : ℝ)).length = (List.replicate m 0 ++ oy).length := by
        rw [List.length_append, List.length_append, List.length_replicate, List.length_replicate, l2, l3]
        omega
      refine zSeries_ext (by rw [List.length_zipWith, ← hlen, min_self, List.length_append, List.length_replicate, l1, l2]; omega) ?_
      rw [zSeries_add hlen, (zSeries_zeros n ox).2, (zSeries_zeros m oy).1, s1, s2, s3, Finset.mul_sum, ← Finset.sum_add_distrib]
      exact Finset.sum_congr rfl fun k _ => by rw [zSeries_append, hx]; ring
    rw [e1, key lw lx ly hl e2 a2 b2 e4 a4 b4, key rw_ rx ry hr e3 a3 b3 e5 a5 b5]

example : ∃ lx rx, sh2bin (stacked 2 ![[1, 2], [3, 4]]) (stacked2 2 ![[1, 0], [0, 1]] ![[0, 1], [1, 0]]) = .ok [lx, rx] ∧
    sh2bin (stacked 5 fun k => List.replicate 3 0 ++ ![[1, 2], [3, 4]] k) (stacked2 2 ![[1, 0], [0, 1]] ![[0, 1], [1, 0]]) = .ok [[0, 0, 0] ++ lx, [0, 0, 0] ++ rx] := by
  obtain ⟨lx, rx, ly, ry, h1, -, h3, -⟩ := C157_blocks (K := 2) (m := 2) (n := 2) (T := 2) (by norm_num) (by norm_num) (by norm_num) (by norm_num) ![[1, 2], [3, 4]]
    ![[1, 2], [3, 4]] ![[1, 0], [0, 1]] ![[0, 1], [1, 0]] (by intro k; fin_cases k <;> rfl) (by intro k; fin_cases k <;> rfl) (by intro k; fin_cases k <;> rfl)
    (by intro k; fin_cases k <;> rfl) 3
  exact ⟨lx, rx, h1, h3⟩

/-- **C157** A matrix applied to the Ambisonic channels before `sh2bin` can be applied to the responses instead (transposed); in particular, turning
the sound field is the same as turning the responses the other way, and turning both changes nothing. -/
theorem C157_matrix {K K' S T : ℕ} (hK : 2 ≤ K) (hK' : 2 ≤ K') (hT : 2 ≤ T) (hS : 1 ≤ S) (M : Matrix (Fin K') (Fin K) ℝ) (x : Matrix (Fin K) (Fin S) ℝ)
    (h : Fin 2 → Matrix (Fin K') (Fin T) ℝ) :
    sh2bin (nd2 (M * x : Matrix (Fin K') (Fin S) ℝ)) (nd3 h) = sh2bin (nd2 x) (nd3 fun e => (M.transpose * h e : Matrix (Fin K) (Fin T) ℝ)) := by
  rw [C45_convolution_partial hK' hT hS (M * x) h, C45_convolution_partial hK hT hS x fun e => M.transpose * h e]
  have key : ∀ e (n : ℕ), (∑ k : Fin K', ∑ s : Fin S, if hh : (s : ℕ) ≤ n ∧ n - s < T then (M * x) k s * h e k ⟨n - s, hh.2⟩ else 0)
      = ∑ k : Fin K, ∑ s : Fin S, if hh : (s : ℕ) ≤ n ∧ n - s < T then x k s * (M.transpose * h e) k ⟨n - s, hh.2⟩ else 0 := by
    intro e n
    rw [Finset.sum_comm, Finset.sum_comm (s := (Finset.univ : Finset (Fin K)))]
    refine Finset.sum_congr rfl fun s _ => ?_
    by_cases hh : (s : ℕ) ≤ n ∧ n - s < T
    · simp only [dif_pos hh, Matrix.mul_apply, Matrix.transpose_apply, Finset.sum_mul, Finset.mul_sum]
      rw [Finset.sum_comm]
      exact Finset.sum_congr rfl fun k _ => Finset.sum_congr rfl fun k' _ => by ring
    · simp only [dif_neg hh, Finset.sum_const_zero]
  simp only [key]

/-- **C157** Turning the sound field together with the responses changes no ear signal. -/
theorem C157_turned {N S T : ℕ} (hN : 1 ≤ N) (hT : 2 ≤ T) (hS : 1 ≤ S) (yaw pitch roll : ℝ) (x : Matrix (Fin ((N + 1) ^ 2)) (Fin S) ℝ)
    (h : Fin 2 → Matrix (Fin ((N + 1) ^ 2)) (Fin T) ℝ) :
    ∃ R, shRotationMatrix N yaw pitch roll .real = .ok ⟨(N + 1) ^ 2, (N + 1) ^ 2, R⟩ ∧
      sh2bin (nd2 (R * x : Matrix (Fin ((N + 1) ^ 2)) (Fin S) ℝ)) (nd3 fun e => (R * h e : Matrix (Fin ((N + 1) ^ 2)) (Fin T) ℝ)) = sh2bin (nd2 x) (nd3 h) := by
  obtain ⟨R, e, -, h2⟩ := C20_orthogonal N hN yaw pitch roll
  have hK : 2 ≤ (N + 1) ^ 2 := by nlinarith
  refine ⟨R, e, ?_⟩
  refine (C157_matrix hK hK hT hS R x fun e => R * h e).trans ?_
  congr 2
  funext e
  rw [← Matrix.mul_assoc, h2, Matrix.one_mul]

/-- First order, five samples, seven taps. -/
example (x : Matrix (Fin ((1 + 1) ^ 2)) (Fin 5) ℝ) (h : Fin 2 → Matrix (Fin ((1 + 1) ^ 2)) (Fin 7) ℝ) : ∃ R, shRotationMatrix 1 0.3 (-1) 2 .real = .ok ⟨(1 + 1) ^ 2, (1 + 1) ^ 2, R⟩ ∧
    sh2bin (nd2 (R * x : Matrix (Fin ((1 + 1) ^ 2)) (Fin 5) ℝ)) (nd3 fun e => (R * h e : Matrix (Fin ((1 + 1) ^ 2)) (Fin 7) ℝ)) = sh2bin (nd2 x) (nd3 h) := by
  have := C157_turned (N := 1) le_rfl (T := 7) (S := 5) (by norm_num) (by norm_num) 0.3 (-1) 2 x h
  exact_mod_cast this

end Verif.Props
