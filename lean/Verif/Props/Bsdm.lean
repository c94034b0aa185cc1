import Verif.Model.ParsaPar
import Verif.Props.ProcessSignals

/-! Parallel rendering: C62. -/

namespace Verif.Props
open Parsa Sig

/-! ### Critical sections -/

/-- Memory after running instructions without interruption. -/
def exec : List Instr → (Addr → ℝ) → ℝ → Addr → ℝ
  | [], m, _ => m
  | .load a :: l, m, _ => exec l m (m a)
  | .store a inc :: l, m, r => exec l (Function.update m a (r + inc)) r

/-- Sum of all increments an instruction list stores at an address. -/
noncomputable def inc : List Instr → Addr → ℝ
  | [] => 0
  | .load _ :: l => inc l
  | .store a d :: l => inc l + fun b => if b = a then d else 0

/-- An uninterrupted run adds the increments. -/
def Adds (b : List Instr) : Prop := ∀ m r, exec b m r = m + inc b

/-- Load-add-store of a list of increments. -/
def pairsOf (adds : List (Addr × ℝ)) : List Instr := adds.flatMap fun x => [.load x.1, .store x.1 x.2]

theorem adds_pairs (adds : List (Addr × ℝ)) : Adds (pairsOf adds) := by
  induction adds with
  | nil => intro m r; simp [pairsOf, exec, inc]
  | cons x xs ih =>
    intro m r
    change exec (pairsOf xs) (Function.update m x.1 (m x.1 + x.2)) (m x.1) = m + (inc (pairsOf xs) + fun b => if b = x.1 then x.2 else 0)
    rw [ih]
    funext b
    simp only [Pi.add_apply, Function.update_apply]
    split_ifs with h
    · rw [h]; ring
    · ring

theorem inc_pairs (adds : List (Addr × ℝ)) (a : Addr) : inc (pairsOf adds) a = (adds.map fun x => if a = x.1 then x.2 else 0).sum := by
  induction adds with
  | nil => simp [pairsOf, inc]
  | cons x xs ih =>
    change (inc (pairsOf xs) + fun b => if b = x.1 then x.2 else 0) a = _
    rw [Pi.add_apply, ih, List.map_cons, List.sum_cons, add_comm]

/-! ### The pool invariant -/

/-- Increment a worker has still to make before entering its critical section. -/
noncomputable def waiting : WState → Addr → ℝ
  | .ready b => inc b
  | _ => 0

/-- Everything not yet begun. -/
noncomputable def _root_.Verif.Parsa.Pool.todo {W : ℕ} (s : Pool W) : Addr → ℝ := (s.pending.map inc).sum + ∑ w, waiting (s.ws w)

theorem sum_update {W : ℕ} (g : Fin W → WState) (w : Fin W) (x : WState) :
    ∑ v, waiting (Function.update g w x v) + waiting (g w) = ∑ v, waiting (g v) + waiting x := by
  rw [← Finset.add_sum_erase _ _ (Finset.mem_univ w), ← Finset.add_sum_erase _ (fun v => waiting (g v)) (Finset.mem_univ w), Function.update_self]
  have : ∑ v ∈ Finset.univ.erase w, waiting (Function.update g w x v) = ∑ v ∈ Finset.univ.erase w, waiting (g v) :=
    Finset.sum_congr rfl fun v hv => by rw [Function.update_of_ne (Finset.ne_of_mem_erase hv)]
  rw [this]
  abel

def Outside (x : WState) : Prop := ∀ rest r, x ≠ .inside rest r

/-- All workers share one lock: at most one is inside, and finishing its section and doing the rest gives the total `T`. -/
structure PoolInv {W : ℕ} (lock : ℕ) (T : Addr → ℝ) (s : Pool W) : Prop where
  pend : ∀ b ∈ s.pending, Adds b
  rdy : ∀ w b, s.ws w = .ready b → Adds b
  sect : (s.owner lock = none ∧ (∀ w, Outside (s.ws w)) ∧ s.mem + s.todo = T) ∨
    ∃ w rest r, s.owner lock = some w ∧ s.ws w = .inside rest r ∧ (∀ v, v ≠ w → Outside (s.ws v)) ∧ exec rest s.mem r + s.todo = T

theorem todo_update {W : ℕ} (s : Pool W) (w : Fin W) (x : WState) (m : Addr → ℝ) (o : ℕ → Option (Fin W)) :
    Pool.todo { s with ws := Function.update s.ws w x, mem := m, owner := o } + waiting (s.ws w) = Pool.todo s + waiting x := by
  unfold Pool.todo
  have := sum_update s.ws w x
  rw [add_assoc, this]
  abel

theorem inv_step {W : ℕ} (lock : ℕ) (T : Addr → ℝ) (s s' : Pool W) (h : Step (fun _ => lock) s s') (hi : PoolInv lock T s) : PoolInv lock T s' := by
  obtain ⟨hp, hr, hs⟩ := hi
  cases h with
  | take w l₁ l₂ b hpend hw =>
    have hb : Adds b := hp b (by rw [hpend]; simp)
    have htodo : Pool.todo { s with pending := l₁ ++ l₂, ws := Function.update s.ws w (.ready b) } = s.todo := by
      unfold Pool.todo
      have h1 := sum_update s.ws w (.ready b)
      rw [hw] at h1
      change _ + (0 : Addr → ℝ) = _ + inc b at h1
      rw [add_zero] at h1
      simp only [hpend, List.map_append, List.sum_append, List.map_cons, List.sum_cons, h1]
      abel
    refine ⟨fun c hc => hp c ?_, fun v c hv => ?_, ?_⟩
    · rw [hpend]; simp only [List.mem_append, List.mem_cons] at hc ⊢; tauto
    · simp only [Function.update_apply] at hv
      split_ifs at hv with hvw
      · cases hv; exact hb
      · exact hr v c hv
    · rcases hs with ⟨h1, h2, h3⟩ | ⟨u, rest, r, h1, h2, h3, h4⟩
      · refine Or.inl ⟨h1, fun v => ?_, by rw [htodo]; exact h3⟩
        simp only [Function.update_apply]
        split_ifs
        · intro _ _ h; cases h
        · exact h2 v
      · have huw : u ≠ w := by rintro rfl; rw [hw] at h2; cases h2
        refine Or.inr ⟨u, rest, r, h1, ?_, fun v hv => ?_, by rw [htodo]; exact h4⟩
        · simp only [Function.update_apply, if_neg huw]; exact h2
        · simp only [Function.update_apply]
          split_ifs
          · intro _ _ h; cases h
          · exact h3 v hv
  | acquire w b hw hfree =>
    have hb : Adds b := hr w b hw
    have htodo := todo_update s w (.inside b 0) s.mem (Function.update s.owner lock (some w))
    rw [hw] at htodo
    change _ + inc b = _ + (0 : Addr → ℝ) at htodo
    rw [add_zero] at htodo
    refine ⟨hp, fun v c hv => ?_, ?_⟩
    · simp only [Function.update_apply] at hv
      split_ifs at hv with hvw
      exact hr v c hv
    · rcases hs with ⟨h1, h2, h3⟩ | ⟨u, rest, r, h1, h2, h3, h4⟩
      · refine Or.inr ⟨w, b, 0, by simp, by simp, fun v hv => ?_, ?_⟩
        · simp only [Function.update_apply, if_neg hv]; exact h2 v
        · change exec b s.mem 0 + _ = T
          rw [hb, ← h3, ← htodo]
          abel
      · rw [hfree] at h1; cases h1
  | load w a rest r hw =>
    have htodo := todo_update s w (.inside rest (s.mem a)) s.mem s.owner
    rw [hw] at htodo
    change _ + (0 : Addr → ℝ) = _ + (0 : Addr → ℝ) at htodo
    rw [add_zero, add_zero] at htodo
    refine ⟨hp, fun v c hv => ?_, ?_⟩
    · simp only [Function.update_apply] at hv
      split_ifs at hv with hvw
      exact hr v c hv
    · rcases hs with ⟨h1, h2, h3⟩ | ⟨u, rest', r', h1, h2, h3, h4⟩
      · exact absurd hw (h2 w _ _)
      · have huw : w = u := by by_contra hne; exact h3 w hne _ _ hw
        subst huw
        rw [hw] at h2
        cases h2
        refine Or.inr ⟨w, rest, s.mem a, h1, by simp, fun v hv => ?_, ?_⟩
        · simp only [Function.update_apply, if_neg hv]; exact h3 v hv
        · change exec rest s.mem (s.mem a) + _ = T
          rw [htodo]
          exact h4
  | store w a d rest r hw =>
    have htodo := todo_update s w (.inside rest r) (Function.update s.mem a (r + d)) s.owner
    rw [hw] at htodo
    change _ + (0 : Addr → ℝ) = _ + (0 : Addr → ℝ) at htodo
    rw [add_zero, add_zero] at htodo
    refine ⟨hp, fun v c hv => ?_, ?_⟩
    · simp only [Function.update_apply] at hv
      split_ifs at hv with hvw
      exact hr v c hv
    · rcases hs with ⟨h1, h2, h3⟩ | ⟨u, rest', r', h1, h2, h3, h4⟩
      · exact absurd hw (h2 w _ _)
      · have huw : w = u := by by_contra hne; exact h3 w hne _ _ hw
        subst huw
        rw [hw] at h2
        cases h2
        refine Or.inr ⟨w, rest, r, h1, by simp, fun v hv => ?_, ?_⟩
        · simp only [Function.update_apply, if_neg hv]; exact h3 v hv
        · change exec rest (Function.update s.mem a (r + d)) r + _ = T
          rw [htodo]
          exact h4
  | release w r hw =>
    have htodo := todo_update s w .idle s.mem (Function.update s.owner lock none)
    rw [hw] at htodo
    change _ + (0 : Addr → ℝ) = _ + (0 : Addr → ℝ) at htodo
    rw [add_zero, add_zero] at htodo
    refine ⟨hp, fun v c hv => ?_, ?_⟩
    · simp only [Function.update_apply] at hv
      split_ifs at hv with hvw
      exact hr v c hv
    · rcases hs with ⟨h1, h2, h3⟩ | ⟨u, rest', r', h1, h2, h3, h4⟩
      · exact absurd hw (h2 w _ _)
      · have huw : w = u := by by_contra hne; exact h3 w hne _ _ hw
        subst huw
        rw [hw] at h2
        cases h2
        refine Or.inl ⟨by simp, fun v => ?_, ?_⟩
        · simp only [Function.update_apply]
          split_ifs with hv
          · intro _ _ h; cases h
          · exact h3 v hv
        · change s.mem + _ = T
          rw [htodo]
          exact h4

theorem inv_init (W lock : ℕ) (tasks : List (List Instr)) (h : ∀ b ∈ tasks, Adds b) : PoolInv lock ((tasks.map inc).sum) (Pool.init W tasks) := by
  refine ⟨h, fun w b hb => (by cases hb), Or.inl ⟨rfl, fun w _ _ hh => (by cases hh), ?_⟩⟩
  have : Pool.todo (Pool.init W tasks) = (tasks.map inc).sum := by
    unfold Pool.todo
    have : ∑ w, waiting ((Pool.init W tasks).ws w) = 0 := Finset.sum_eq_zero fun w _ => rfl
    rw [this, add_zero]
    rfl
  rw [this]
  funext a
  simp [Pool.init]

theorem inv_run {W : ℕ} (lock : ℕ) (T : Addr → ℝ) (s s' : Pool W) (h : Relation.ReflTransGen (Step fun _ => lock) s s') (hi : PoolInv lock T s) : PoolInv lock T s' := by
  induction h with
  | refl => exact hi
  | tail _ hstep ih => exact inv_step lock T _ _ hstep ih

theorem inv_final {W : ℕ} (lock : ℕ) (T : Addr → ℝ) (s : Pool W) (hi : PoolInv lock T s) (hf : s.Final) : s.mem = T := by
  obtain ⟨hp, hw⟩ := hf
  have htodo : s.todo = 0 := by
    unfold Pool.todo
    rw [hp, Finset.sum_eq_zero fun w _ => by rw [hw w]; rfl]
    simp
  rcases hi.sect with ⟨_, _, h3⟩ | ⟨w, rest, r, _, h2, _⟩
  · rw [← h3, htodo, add_zero]
  · rw [hw w] at h2; cases h2

/-! ### Progress -/

/-- Instructions left in a worker, plus its remaining transitions. -/
def _root_.Verif.Parsa.WState.size : WState → ℕ
  | .idle => 0
  | .ready b => b.length + 2
  | .inside rest _ => rest.length + 1

/-- A measure every step decreases. -/
def _root_.Verif.Parsa.Pool.size {W : ℕ} (s : Pool W) : ℕ := (s.pending.map fun b => b.length + 3).sum + ∑ w, (s.ws w).size

theorem size_update {W : ℕ} (g : Fin W → WState) (w : Fin W) (x : WState) :
    ∑ v, (Function.update g w x v).size + (g w).size = ∑ v, (g v).size + x.size := by
  rw [← Finset.add_sum_erase _ _ (Finset.mem_univ w), ← Finset.add_sum_erase _ (fun v => (g v).size) (Finset.mem_univ w), Function.update_self]
  have : ∑ v ∈ Finset.univ.erase w, (Function.update g w x v).size = ∑ v ∈ Finset.univ.erase w, (g v).size :=
    Finset.sum_congr rfl fun v hv => by rw [Function.update_of_ne (Finset.ne_of_mem_erase hv)]
  rw [this]
  ring

theorem step_size {W : ℕ} (lockOf : Fin W → ℕ) (s s' : Pool W) (h : Step lockOf s s') : s'.size < s.size := by
  cases h with
  | take w l₁ l₂ b hpend hw =>
    have h1 := size_update s.ws w (.ready b)
    rw [hw] at h1
    unfold Pool.size
    simp only [hpend, List.map_append, List.sum_append, List.map_cons, List.sum_cons, WState.size] at h1 ⊢
    omega
  | acquire w b hw hfree =>
    have h1 := size_update s.ws w (.inside b 0)
    rw [hw] at h1
    unfold Pool.size
    simp only [WState.size] at h1 ⊢
    omega
  | load w a rest r hw =>
    have h1 := size_update s.ws w (.inside rest (s.mem a))
    rw [hw] at h1
    unfold Pool.size
    simp only [WState.size, List.length_cons] at h1 ⊢
    omega
  | store w a d rest r hw =>
    have h1 := size_update s.ws w (.inside rest r)
    rw [hw] at h1
    unfold Pool.size
    simp only [WState.size, List.length_cons] at h1 ⊢
    omega
  | release w r hw =>
    have h1 := size_update s.ws w .idle
    rw [hw] at h1
    unfold Pool.size
    simp only [WState.size, List.length_nil] at h1 ⊢
    omega

theorem progress {W : ℕ} (lock : ℕ) (T : Addr → ℝ) (s : Pool W) (hi : PoolInv lock T s) (hW : 0 < W) (hnf : ¬ s.Final) : ∃ s', Step (fun _ => lock) s s' := by
  rcases hi.sect with ⟨h1, h2, -⟩ | ⟨w, rest, r, -, h2, -⟩
  · by_cases hr : ∃ w b, s.ws w = .ready b
    · obtain ⟨w, b, hw⟩ := hr
      exact ⟨_, Step.acquire s w b hw h1⟩
    · have hidle : ∀ w, s.ws w = .idle := by
        intro w
        rcases hq : s.ws w with _ | b | ⟨rest, r⟩
        · rfl
        · exact absurd ⟨w, b, hq⟩ hr
        · exact absurd hq (h2 w rest r)
      rcases hp : s.pending with _ | ⟨b, l⟩
      · exact absurd ⟨hp, hidle⟩ hnf
      · exact ⟨_, Step.take s ⟨0, hW⟩ [] l b hp (hidle _)⟩
  · rcases rest with _ | ⟨i, rest⟩
    · exact ⟨_, Step.release s w r h2⟩
    · cases i with
      | load a => exact ⟨_, Step.load s w a rest r h2⟩
      | store a d => exact ⟨_, Step.store s w a d rest r h2⟩

theorem completes {W : ℕ} (lock : ℕ) (T : Addr → ℝ) (hW : 0 < W) : ∀ (n : ℕ) (s : Pool W), s.size ≤ n → PoolInv lock T s →
    ∃ s', Relation.ReflTransGen (Step fun _ => lock) s s' ∧ s'.Final := by
  intro n
  induction n with
  | zero =>
    intro s hs hi
    by_cases hf : s.Final
    · exact ⟨s, .refl, hf⟩
    · obtain ⟨s', hst⟩ := progress lock T s hi hW hf
      have := step_size _ _ _ hst
      omega
  | succ n ih =>
    intro s hs hi
    by_cases hf : s.Final
    · exact ⟨s, .refl, hf⟩
    · obtain ⟨s', hst⟩ := progress lock T s hi hW hf
      have := step_size _ _ _ hst
      obtain ⟨s'', hrun, hfin⟩ := ih s' (by omega) (inv_step lock T _ _ hst hi)
      exact ⟨s'', .head hst hrun, hfin⟩

/-! ### Tasks -/

theorem body_pairs (t : BsdmTask) : t.body = pairsOf ((t.l.zipIdx.map fun x => ((t.i + x.2, 0), t.p * x.1)) ++ (t.r.zipIdx.map fun x => ((t.i + x.2, 1), t.p * x.1))) := by
  unfold BsdmTask.body pairsOf
  rw [List.flatMap_append, List.flatMap_map, List.flatMap_map]

theorem sum_zipIdx (v : List ℝ) (i k τ : ℕ) (p : ℝ) : ((v.zipIdx k).map fun x => if τ = i + x.2 then p * x.1 else 0).sum =
    if i + k ≤ τ then p * v.getD (τ - i - k) 0 else 0 := by
  induction v generalizing k with
  | nil => simp
  | cons y ys ih =>
    rw [List.zipIdx_cons, List.map_cons, List.sum_cons, ih]
    rcases lt_trichotomy τ (i + k) with h | h | h
    · rw [if_neg (by omega), if_neg (by omega), if_neg (by omega)]; simp
    · subst h
      rw [if_pos rfl, if_neg (by omega), if_pos le_rfl]
      simp
    · rw [if_neg (by omega), if_pos (by omega), if_pos (by omega)]
      obtain ⟨d, hd⟩ : ∃ d, τ - i - k = d + 1 := ⟨τ - i - k - 1, by omega⟩
      rw [hd, show τ - i - (k + 1) = d by omega]
      simp

theorem sum_zero_of {α : Type} (l : List α) (f : α → ℝ) (h : ∀ x ∈ l, f x = 0) : (l.map f).sum = 0 := by
  induction l with
  | nil => rfl
  | cons x xs ih => rw [List.map_cons, List.sum_cons, h x (by simp), ih fun y hy => h y (by simp [hy]), add_zero]

/-- What one task adds to sample `τ`. -/
theorem inc_body (t : BsdmTask) (τ : ℕ) :
    inc t.body (τ, 0) = (if t.i ≤ τ then t.p * t.l.getD (τ - t.i) 0 else 0) ∧ inc t.body (τ, 1) = (if t.i ≤ τ then t.p * t.r.getD (τ - t.i) 0 else 0) := by
  rw [body_pairs, inc_pairs, inc_pairs, List.map_append, List.sum_append, List.map_append, List.sum_append, List.map_map, List.map_map, List.map_map, List.map_map]
  constructor
  · rw [sum_zero_of t.r.zipIdx _ (by intro x _; simp), add_zero]
    have := sum_zipIdx t.l t.i 0 τ t.p
    simp only [add_zero, Nat.sub_zero] at this
    rw [← this]
    congr 1
    refine List.map_congr_left fun x _ => ?_
    simp
  · rw [sum_zero_of t.l.zipIdx _ (by intro x _; simp), zero_add]
    have := sum_zipIdx t.r t.i 0 τ t.p
    simp only [add_zero, Nat.sub_zero] at this
    rw [← this]
    congr 1
    refine List.map_congr_left fun x _ => ?_
    simp

theorem addAt_length (x v : List ℝ) (i : ℕ) (p : ℝ) : (addAt x i p v).length = x.length := by simp [addAt]

theorem addAt_get (x v : List ℝ) (i τ : ℕ) (p : ℝ) (hτ : τ < x.length) : (addAt x i p v).getD τ 0 = x.getD τ 0 + if i ≤ τ then p * v.getD (τ - i) 0 else 0 := by
  unfold addAt
  rw [List.getD_eq_getElem?_getD, List.getElem?_map, List.getElem?_zipIdx, List.getD_eq_getElem?_getD, List.getElem?_eq_getElem hτ]
  simp only [Option.map_some, Option.getD_some, Nat.zero_add]
  by_cases h1 : i ≤ τ
  · by_cases h2 : τ < i + v.length
    · rw [if_pos ⟨h1, h2⟩, if_pos h1]
    · rw [if_neg (by tauto), if_pos h1, List.getD_eq_default _ _ (by omega)]; simp
  · rw [if_neg (by tauto), if_neg h1]; simp

theorem serial_get (tasks : List BsdmTask) (acc : List ℝ × List ℝ) (n : ℕ) (hn : acc.1.length = n ∧ acc.2.length = n) :
    let r := tasks.foldl (fun lr t => (addAt lr.1 t.i t.p t.l, addAt lr.2 t.i t.p t.r)) acc
    r.1.length = n ∧ r.2.length = n ∧ ∀ τ < n, r.1.getD τ 0 = acc.1.getD τ 0 + (tasks.map fun t => inc t.body (τ, 0)).sum ∧
      r.2.getD τ 0 = acc.2.getD τ 0 + (tasks.map fun t => inc t.body (τ, 1)).sum := by
  induction tasks generalizing acc with
  | nil => simp [hn]
  | cons t ts ih =>
    have h := ih (addAt acc.1 t.i t.p t.l, addAt acc.2 t.i t.p t.r) ⟨by simp [addAt_length, hn], by simp [addAt_length, hn]⟩
    refine ⟨h.1, h.2.1, fun τ hτ => ?_⟩
    have h3 := h.2.2 τ hτ
    simp only [List.foldl_cons] at h3 ⊢
    rw [h3.1, h3.2, addAt_get _ _ _ _ _ (by omega), addAt_get _ _ _ _ _ (by omega), List.map_cons, List.map_cons, List.sum_cons, List.sum_cons, (inc_body t τ).1, (inc_body t τ).2]
    constructor <;> ring

theorem list_sum_apply (l : List (Addr → ℝ)) (a : Addr) : l.sum a = (l.map fun f => f a).sum := by
  induction l with
  | nil => rfl
  | cons f l ih => rw [List.sum_cons, Pi.add_apply, ih, List.map_cons, List.sum_cons]

/-- Every possible result of the pool equals the serial result. -/
theorem pool_eq_serial (n W lock : ℕ) (tasks : List BsdmTask) (s : Pool W)
    (hrun : Relation.ReflTransGen (Step fun _ => lock) (Pool.init W (tasks.map BsdmTask.body)) s) (hfin : s.Final) :
    ((List.range n).map fun t => s.mem (t, 0), (List.range n).map fun t => s.mem (t, 1)) = bsdmSerial n tasks := by
  have hmem : s.mem = ((tasks.map BsdmTask.body).map inc).sum :=
    inv_final lock _ s (inv_run lock _ _ _ hrun (inv_init W lock _ (by
      intro b hb
      obtain ⟨t, -, rfl⟩ := List.mem_map.mp hb
      rw [body_pairs]
      exact adds_pairs _))) hfin
  obtain ⟨h1, h2, h3⟩ := serial_get tasks (List.replicate n 0, List.replicate n 0) n ⟨by simp, by simp⟩
  change (bsdmSerial n tasks).1.length = n at h1
  change (bsdmSerial n tasks).2.length = n at h2
  have hg : ∀ τ c, s.mem (τ, c) = (tasks.map fun t => inc t.body (τ, c)).sum := by
    intro τ c
    rw [hmem, list_sum_apply, List.map_map, List.map_map]
    rfl
  refine Prod.ext (List.ext_getElem (by simp [h1]) fun i hi1 hi2 => ?_) (List.ext_getElem (by simp [h2]) fun i hi1 hi2 => ?_)
  · have hi : i < n := by simpa using hi1
    have := (h3 i hi).1
    change (bsdmSerial n tasks).1.getD i 0 = _ at this
    rw [List.getD_eq_getElem?_getD, List.getElem?_eq_getElem hi2, Option.getD_some] at this
    rw [this]
    simp [hg, hi]
  · have hi : i < n := by simpa using hi1
    have := (h3 i hi).2
    change (bsdmSerial n tasks).2.getD i 0 = _ at this
    rw [List.getD_eq_getElem?_getD, List.getElem?_eq_getElem hi2, Option.getD_some] at this
    rw [this]
    simp [hg, hi]

/-! ### C62 -/

/-- **C62**: if all workers share the lock, the result of `render_bsdm` is the same for every number of jobs (at least one, `None` meaning the number of
processors) and every interleaving of the workers' loads and stores — including which exception is raised. -/
theorem C62_schedule (lock cpus cpus' : ℕ) (p phi theta : List ℝ) (h : HRIRs) (jobs jobs' : Option ℤ) (hj : 1 ≤ jobs.getD cpus) (hj' : 1 ≤ jobs'.getD cpus')
    (out out' : Py (List ℝ × List ℝ)) (hr : RenderBsdm (fun _ _ => lock) cpus p phi theta h jobs out)
    (hr' : RenderBsdm (fun _ _ => lock) cpus' p phi theta h jobs' out') : out = out' := by
  have key : ∀ (c : ℕ) (j : Option ℤ) (o : Py (List ℝ × List ℝ)), 1 ≤ j.getD (c : ℤ) → RenderBsdm (fun _ _ => lock) c p phi theta h j o →
      o = ((bsdmSamples p phi theta).mapM (bsdmTask h (p.length + h.numSamples - 1))).map (bsdmSerial (p.length + h.numSamples - 1)) := by
    intro c j o hc ho
    cases ho with
    | raises e _ ht => rw [ht]; rfl
    | noJobs hn => omega
    | serial tasks _ ht => rw [ht]; rfl
    | parallel tasks W s _ hW ht hrun hfin =>
      rw [ht]
      exact congrArg Except.ok (pool_eq_serial _ W lock tasks s hrun hfin)
  rw [key cpus jobs out hj hr, key cpus' jobs' out' hj' hr']

/-- Four workers and one. -/
example : 1 ≤ (some 4 : Option ℤ).getD (8 : ℕ) ∧ 1 ≤ (some 1 : Option ℤ).getD (8 : ℕ) := by decide

/-- **C62**: the call always comes to an end with some result (the pool cannot deadlock, and no execution is longer than the initial measure of the
remaining work). -/
theorem C62_completes (lock cpus : ℕ) (p phi theta : List ℝ) (h : HRIRs) (jobs : Option ℤ) :
    (∃ out, RenderBsdm (fun _ _ => lock) cpus p phi theta h jobs out) ∧
    ∀ (W : ℕ) (s s' : Pool W) (lockOf : Fin W → ℕ), Step lockOf s s' → s'.size < s.size := by
  refine ⟨?_, fun W s s' lockOf hs => step_size lockOf s s' hs⟩
  by_cases hj : jobs.getD (cpus : ℤ) < 1
  · exact ⟨_, .noJobs hj⟩
  rcases ht : (bsdmSamples p phi theta).mapM (bsdmTask h (p.length + h.numSamples - 1)) with e | tasks
  · exact ⟨_, .raises e (by omega) ht⟩
  by_cases h1 : jobs.getD (cpus : ℤ) = 1
  · exact ⟨_, .serial tasks h1 ht⟩
  obtain ⟨W, hW⟩ : ∃ W : ℕ, jobs.getD (cpus : ℤ) = W := ⟨(jobs.getD (cpus : ℤ)).toNat, by omega⟩
  obtain ⟨s, hrun, hfin⟩ := completes lock _ (by omega : 0 < W) _ (Pool.init W (tasks.map BsdmTask.body)) le_rfl (inv_init W lock _ (by
    intro b hb
    obtain ⟨t, -, rfl⟩ := List.mem_map.mp hb
    rw [body_pairs]
    exact adds_pairs _))
  exact ⟨_, .parallel tasks W s hW (by omega) ht hrun hfin⟩

/-- **C62**: fewer than one job raises `ValueError`. -/
theorem C62_no_jobs (lockOf) (cpus : ℕ) (p phi theta : List ℝ) (h : HRIRs) (jobs : Option ℤ) (hj : jobs.getD cpus < 1) (out : Py (List ℝ × List ℝ))
    (hr : RenderBsdm lockOf cpus p phi theta h jobs out) : out = .error .valueError := by
  cases hr with
  | raises e h1 _ => omega
  | noJobs => rfl
  | serial _ h1 _ => omega
  | parallel _ W _ h1 hW _ _ _ => omega

example : (some 0 : Option ℤ).getD (8 : ℕ) < 1 := by decide

theorem getD_zeros {n t : ℕ} (h : t < n) : (List.replicate n (0 : ℝ)).getD t 0 = 0 := by
  simp [List.getD_eq_getElem?_getD, h]

theorem samples_eq (p phi theta : List ℝ) (h1 : p.length = phi.length) (h2 : p.length = theta.length) :
    bsdmSamples p phi theta = (List.range p.length).map fun i => ((p.getD i 0, phi.getD i 0, theta.getD i 0), i) := by
  unfold bsdmSamples
  refine List.ext_getElem (by simp [← h1, ← h2]) fun i hi1 hi2 => ?_
  have hi : i < p.length := by simpa using hi2
  simp [List.getElem?_eq_getElem hi, List.getElem?_eq_getElem (show i < phi.length by omega), List.getElem?_eq_getElem (show i < theta.length by omega)]

/-- **C62**: for any number of jobs and any interleaving, sample `t` of the left (right) response is the sum over `i` of `p[i] * h_i[t - i]`, where `h_i` is
the left (right) response nearest to direction `i`. -/
theorem C62_convolution (lock cpus : ℕ) (p phi theta : List ℝ) (h : HRIRs) (jobs : Option ℤ) (hj : 1 ≤ jobs.getD cpus)
    (h1 : p.length = phi.length) (h2 : p.length = theta.length) (l r : ℕ → List ℝ)
    (hn : ∀ i < p.length, h.nearestHrirs (phi.getD i 0) (theta.getD i 0) = .ok (l i, r i) ∧ (l i).length = h.numSamples ∧ (r i).length = h.numSamples)
    (out : Py (List ℝ × List ℝ)) (hr : RenderBsdm (fun _ _ => lock) cpus p phi theta h jobs out) :
    ∃ L R, out = .ok (L, R) ∧ L.length = p.length + h.numSamples - 1 ∧ R.length = p.length + h.numSamples - 1 ∧
      ∀ t < p.length + h.numSamples - 1,
        L.getD t 0 = ∑ i ∈ Finset.range p.length, (if i ≤ t then p.getD i 0 * (l i).getD (t - i) 0 else 0) ∧
        R.getD t 0 = ∑ i ∈ Finset.range p.length, (if i ≤ t then p.getD i 0 * (r i).getD (t - i) 0 else 0) := by
  have htasks : (bsdmSamples p phi theta).mapM (bsdmTask h (p.length + h.numSamples - 1)) =
      .ok ((List.range p.length).map fun i => ({ i := i, p := p.getD i 0, l := l i, r := r i } : BsdmTask)) := by
    rw [samples_eq p phi theta h1 h2, mapM_eq_map _ (fun x => ({ i := x.2, p := x.1.1, l := l x.2, r := r x.2 } : BsdmTask)), List.map_map]
    · rfl
    · intro x hx
      obtain ⟨i, hi, rfl⟩ := List.mem_map.mp hx
      rw [List.mem_range] at hi
      obtain ⟨hq, hl, hrr⟩ := hn i hi
      unfold bsdmTask
      simp only [hq]
      change (if i + (l i).length ≤ _ ∧ i + (r i).length ≤ _ then _ else _) = _
      rw [if_pos (by omega)]
  set tasks := (List.range p.length).map fun i => ({ i := i, p := p.getD i 0, l := l i, r := r i } : BsdmTask) with hT
  have hone : RenderBsdm (fun _ _ => lock) 1 p phi theta h (some 1) (.ok (bsdmSerial (p.length + h.numSamples - 1) tasks)) := .serial tasks rfl htasks
  have hout := C62_schedule lock cpus 1 p phi theta h jobs (some 1) hj (by simp) _ _ hr hone
  obtain ⟨g1, g2, g3⟩ := serial_get tasks (List.replicate (p.length + h.numSamples - 1) 0, List.replicate (p.length + h.numSamples - 1) 0) (p.length + h.numSamples - 1) ⟨by simp, by simp⟩
  refine ⟨_, _, hout, g1, g2, fun t ht => ?_⟩
  have hsum : ∀ f : ℕ → ℝ, ((List.range p.length).map f).sum = ∑ i ∈ Finset.range p.length, f i := fun f => by
    rw [Finset.sum_range, ← List.sum_ofFn, List.ofFn_eq_map, ← List.map_coe_finRange_eq_range, List.map_map]; rfl
  constructor
  · refine ((g3 t ht).1).trans ?_
    rw [getD_zeros ht, zero_add, hT, List.map_map, ← hsum]
    congr 1
    refine List.map_congr_left fun i _ => ?_
    exact (inc_body _ t).1
  · refine ((g3 t ht).2).trans ?_
    rw [getD_zeros ht, zero_add, hT, List.map_map, ← hsum]
    congr 1
    refine List.map_congr_left fun i _ => ?_
    exact (inc_body _ t).2

/-- One measured direction with two taps, two samples. -/
example : let h : HRIRs := { left := ⟨2, [[1, 2]]⟩, right := ⟨2, [[3, 4]]⟩, azi := [0], zen := [0], fs := 48000, numGrid := 1, numSamples := 2 }
    ∀ i < ([5, 6] : List ℝ).length, h.nearestHrirs (([0, 1] : List ℝ).getD i 0) (([0, 1] : List ℝ).getD i 0) = .ok ([1, 2], [3, 4]) := by
  intro h i hi
  rfl

/-! ### Without a shared lock -/

/-- A worker inside its section can run to its end uninterrupted. -/
theorem run_inside {W : ℕ} (lockOf : Fin W → ℕ) (w : Fin W) : ∀ (rest : List Instr) (s : Pool W) (r : ℝ), s.ws w = .inside rest r →
    ∃ r', Relation.ReflTransGen (Step lockOf) s { s with mem := exec rest s.mem r, ws := Function.update s.ws w (.inside [] r') }
  | [], s, r, h => ⟨r, by
      have : ({ s with mem := exec [] s.mem r, ws := Function.update s.ws w (.inside [] r) } : Pool W) = s := by
        have e : Function.update s.ws w (.inside [] r) = s.ws := by rw [← h]; exact Function.update_eq_self w s.ws
        simp [e, exec]
      rw [this]⟩
  | .load a :: rest, s, r, h => by
      obtain ⟨r', hr⟩ := run_inside lockOf w rest { s with ws := Function.update s.ws w (.inside rest (s.mem a)) } (s.mem a) (by simp)
      refine ⟨r', .head (Step.load s w a rest r h) ?_⟩
      simpa [Function.update_idem, exec] using hr
  | .store a d :: rest, s, r, h => by
      obtain ⟨r', hr⟩ := run_inside lockOf w rest { s with mem := Function.update s.mem a (r + d), ws := Function.update s.ws w (.inside rest r) } r (by simp)
      refine ⟨r', .head (Step.store s w a d rest r h) ?_⟩
      simpa [Function.update_idem, exec] using hr

/-- **C62**, the proviso is needed: if every worker has a lock of its own (workers that re-import the module instead of being forked), two workers can lose
an update.  Two unit pulses rendered with the response `[1, 1]` overlap at sample 1, where the result should be 2 and can be 1. -/
theorem C62_own_locks_fail : ∃ s : Pool 2,
    Relation.ReflTransGen (Step fun w => w.val) (Pool.init 2 [BsdmTask.body ⟨0, 1, [1, 1], []⟩, BsdmTask.body ⟨1, 1, [1, 1], []⟩]) s ∧ s.Final ∧
    s.mem (1, 0) = 1 ∧ (bsdmSerial 3 [⟨0, 1, [1, 1], []⟩, ⟨1, 1, [1, 1], []⟩]).1.getD 1 0 = 2 := by
  set b0 : List Instr := BsdmTask.body ⟨0, 1, [1, 1], []⟩ with hb0
  set b1 : List Instr := BsdmTask.body ⟨1, 1, [1, 1], []⟩ with hb1
  have e0 : b0 = [.load (0, 0), .store (0, 0) 1, .load (1, 0), .store (1, 0) 1] := by simp [hb0, BsdmTask.body]
  have e1 : b1 = [.load (1, 0), .store (1, 0) 1, .load (2, 0), .store (2, 0) 1] := by simp [hb1, BsdmTask.body]
  let lockOf : Fin 2 → ℕ := fun w => w.val
  let s0 := Pool.init 2 [b0, b1]
  -- both workers take a task and enter their sections, worker 1 loads sample 1
  let s1 : Pool 2 := { s0 with pending := [b1], ws := Function.update s0.ws 0 (.ready b0) }
  let s2 : Pool 2 := { s1 with pending := [], ws := Function.update s1.ws 1 (.ready b1) }
  let s3 : Pool 2 := { s2 with ws := Function.update s2.ws 0 (.inside b0 0), owner := Function.update s2.owner 0 (some 0) }
  let s4 : Pool 2 := { s3 with ws := Function.update s3.ws 1 (.inside b1 0), owner := Function.update s3.owner 1 (some 1) }
  let s5 : Pool 2 := { s4 with ws := Function.update s4.ws 1 (.inside [.store (1, 0) 1, .load (2, 0), .store (2, 0) 1] 0) }
  have h1 : Step lockOf s0 s1 := Step.take s0 0 [] [b1] b0 rfl rfl
  have h2 : Step lockOf s1 s2 := Step.take s1 1 [] [] b1 rfl (by simp [s1, s0, Pool.init])
  have h3 : Step lockOf s2 s3 := Step.acquire s2 0 b0 (by simp [s2, s1]) rfl
  have h4 : Step lockOf s3 s4 := Step.acquire s3 1 b1 (by simp [s3, s2]) (by simp [s3, s2, s1, s0, Pool.init, lockOf])
  have h5 : Step lockOf s4 s5 := Step.load s4 1 (1, 0) [.store (1, 0) 1, .load (2, 0), .store (2, 0) 1] 0 (by simp [s4, e1])
  -- worker 0 runs to its end, then worker 1
  obtain ⟨r6, h6⟩ := run_inside lockOf 0 b0 s5 0 (by simp [s5, s4, s3])
  set s6 : Pool 2 := { s5 with mem := exec b0 s5.mem 0, ws := Function.update s5.ws 0 (.inside [] r6) } with hs6
  obtain ⟨r7, h7⟩ := run_inside lockOf 1 [.store (1, 0) 1, .load (2, 0), .store (2, 0) 1] s6 0 (by simp [hs6, s5])
  set s7 : Pool 2 := { s6 with mem := exec [.store (1, 0) 1, .load (2, 0), .store (2, 0) 1] s6.mem 0, ws := Function.update s6.ws 1 (.inside [] r7) } with hs7
  have h8 : Step lockOf s7 _ := Step.release s7 0 r6 (by simp [hs7, hs6])
  set s8 : Pool 2 := { s7 with ws := Function.update s7.ws 0 .idle, owner := Function.update s7.owner (lockOf 0) none } with hs8
  have h9 : Step lockOf s8 _ := Step.release s8 1 r7 (by simp [hs8, hs7])
  set s9 : Pool 2 := { s8 with ws := Function.update s8.ws 1 .idle, owner := Function.update s8.owner (lockOf 1) none } with hs9
  refine ⟨s9, ?_, ⟨rfl, ?_⟩, ?_, ?_⟩
  · exact (((((((Relation.ReflTransGen.single h1).tail h2).tail h3).tail h4).tail h5).trans h6).trans h7).tail h8 |>.tail h9
  · intro w
    fin_cases w <;> simp [hs9, hs8]
  · simp [hs9, hs8, hs7, hs6, exec, e0, s5, s4, s3, s2, s1, s0, Pool.init]
  · norm_num [bsdmSerial, addAt, List.zipIdx, List.replicate]

end Verif.Props
