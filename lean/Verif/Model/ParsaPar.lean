import Verif.Model.Parsa
import Mathlib.Logic.Relation

/-!
Model of the parallel part of `/repo/spaudiopy/parsa.py`: `pseudo_intensity` (390-486) and `render_bsdm` (521-584) with their worker
pools (36-38, 950-961), at the granularity of single loads and stores to the shared array.
-/

namespace Verif.Parsa
open Real Sig

/-! ### The worker pool -/

/-- Address of one sample of the shared array: time index and column (`parsa.py` 526-527). -/
abbrev Addr := ℕ × Fin 2

/-- Machine steps of `shared_array[...] += ...` (`parsa.py` 526-527): load a sample into the worker's register, store the register plus an
increment. -/
inductive Instr
  | load (a : Addr)
  | store (a : Addr) (inc : ℝ)

/-- What a worker of the pool does: nothing, about to enter `with lock` (`parsa.py` 525) with the given body, or inside it with the remaining
instructions and its register. -/
inductive WState
  | idle
  | ready (body : List Instr)
  | inside (rest : List Instr) (reg : ℝ)

/-- State of the pool: tasks not yet handed out, workers, shared array, owner of every lock (`parsa.py` 36-38, 573-577). -/
structure Pool (W : ℕ) where
  pending : List (List Instr)
  ws : Fin W → WState
  mem : Addr → ℝ
  owner : ℕ → Option (Fin W)

/-- One step of one worker (`parsa.py` 522-527 executed by `pool.starmap`, 573-577).  `lockOf w` is the lock object the global name `lock`
(line 38) denotes in worker `w`: one and the same for forked workers, a different one each if the workers re-import the module.
Simplification: tasks are handed out one by one in any order (the chunks of `starmap` are among these orders). -/
inductive Step {W : ℕ} (lockOf : Fin W → ℕ) : Pool W → Pool W → Prop
  | take (s : Pool W) (w : Fin W) (l₁ l₂ : List (List Instr)) (b : List Instr) (hp : s.pending = l₁ ++ b :: l₂) (hw : s.ws w = .idle) :
      Step lockOf s { s with pending := l₁ ++ l₂, ws := Function.update s.ws w (.ready b) }
  | acquire (s : Pool W) (w : Fin W) (b : List Instr) (hw : s.ws w = .ready b) (hfree : s.owner (lockOf w) = none) :
      Step lockOf s { s with ws := Function.update s.ws w (.inside b 0), owner := Function.update s.owner (lockOf w) (some w) }
  | load (s : Pool W) (w : Fin W) (a : Addr) (rest : List Instr) (r : ℝ) (hw : s.ws w = .inside (.load a :: rest) r) :
      Step lockOf s { s with ws := Function.update s.ws w (.inside rest (s.mem a)) }
  | store (s : Pool W) (w : Fin W) (a : Addr) (inc : ℝ) (rest : List Instr) (r : ℝ) (hw : s.ws w = .inside (.store a inc :: rest) r) :
      Step lockOf s { s with mem := Function.update s.mem a (r + inc), ws := Function.update s.ws w (.inside rest r) }
  | release (s : Pool W) (w : Fin W) (r : ℝ) (hw : s.ws w = .inside [] r) :
      Step lockOf s { s with ws := Function.update s.ws w .idle, owner := Function.update s.owner (lockOf w) none }

/-- The pool before the first step: zero array, all tasks pending (`parsa.py` 568-577, 950-961). -/
def Pool.init (W : ℕ) (tasks : List (List Instr)) : Pool W :=
  { pending := tasks, ws := fun _ => .idle, mem := fun _ => 0, owner := fun _ => none }

/-- `pool.starmap` has returned (`parsa.py` 577): no task left, all workers idle. -/
def Pool.Final {W : ℕ} (s : Pool W) : Prop := s.pending = [] ∧ ∀ w, s.ws w = .idle

/-! ### `render_bsdm` -/

/-- One sample to be rendered: time index, pressure, the two responses. -/
structure BsdmTask where
  i : ℕ
  p : ℝ
  l : List ℝ
  r : List ℝ

/-- The body of `_render_bsdm_sample` (`parsa.py` 526-527): element by element, left then right column. -/
def BsdmTask.body (t : BsdmTask) : List Instr :=
  (t.l.zipIdx.flatMap fun x => [.load (t.i + x.2, 0), .store (t.i + x.2, 0) (t.p * x.1)]) ++
  (t.r.zipIdx.flatMap fun x => [.load (t.i + x.2, 1), .store (t.i + x.2, 1) (t.p * x.1)])

/-- Evaluation of one task up to the addition (`parsa.py` 523, 561): the nearest responses, which must fit into the output of length `n` at
their position (`ValueError` of numpy otherwise; only possible if the ears have different numbers of taps). -/
noncomputable def bsdmTask (h : HRIRs) (n : ℕ) (x : (ℝ × ℝ × ℝ) × ℕ) : Py BsdmTask :=
  (h.nearestHrirs x.1.2.1 x.1.2.2).bind fun lr =>
    if x.2 + lr.1.length ≤ n ∧ x.2 + lr.2.length ≤ n then .ok { i := x.2, p := x.1.1, l := lr.1, r := lr.2 } else .error .valueError

/-- `enumerate(zip(sdm_p, sdm_phi, sdm_theta))` and `zip(range(len(sdm_p)), ...)` (`parsa.py` 560, 570-571). -/
def bsdmSamples (p phi theta : List ℝ) : List ((ℝ × ℝ × ℝ) × ℕ) := (p.zip (phi.zip theta)).zipIdx

/-- `x[i:i + len(v)] += p * v` for a slice inside `x` (`parsa.py` 563-564). -/
def addAt (x : List ℝ) (i : ℕ) (p : ℝ) (v : List ℝ) : List ℝ :=
  x.zipIdx.map fun y => if i ≤ y.2 ∧ y.2 < i + v.length then y.1 + p * v.getD (y.2 - i) 0 else y.1

/-- The serial loop (`parsa.py` 560-564). -/
def bsdmSerial (n : ℕ) (tasks : List BsdmTask) : List ℝ × List ℝ :=
  tasks.foldl (fun lr t => (addAt lr.1 t.i t.p t.l, addAt lr.2 t.i t.p t.r)) (List.replicate n 0, List.replicate n 0)

/-- Possible results of `render_bsdm` (`parsa.py` 530-584): the serial loop for one job, otherwise any complete execution of the pool;
`Pool(processes)` raises `ValueError` below one.  `lockOf` as in `Step`; `cpus` is `multiprocessing.cpu_count()`.
Simplification: a task that raises makes the whole call raise its exception (that of the first such task). -/
inductive RenderBsdm (lockOf : (W : ℕ) → Fin W → ℕ) (cpus : ℕ) (p phi theta : List ℝ) (h : HRIRs) (jobs : Option ℤ) : Py (List ℝ × List ℝ) → Prop
  | raises (e : PyErr) (hj : 1 ≤ jobs.getD cpus)
      (ht : (bsdmSamples p phi theta).mapM (bsdmTask h (p.length + h.numSamples - 1)) = .error e) : RenderBsdm lockOf cpus p phi theta h jobs (.error e)
  | noJobs (hj : jobs.getD cpus < 1) : RenderBsdm lockOf cpus p phi theta h jobs (.error .valueError)
  | serial (tasks : List BsdmTask) (hj : jobs.getD cpus = 1)
      (ht : (bsdmSamples p phi theta).mapM (bsdmTask h (p.length + h.numSamples - 1)) = .ok tasks) :
      RenderBsdm lockOf cpus p phi theta h jobs (.ok (bsdmSerial (p.length + h.numSamples - 1) tasks))
  | parallel (tasks : List BsdmTask) (W : ℕ) (s : Pool W) (hj : jobs.getD cpus = W) (hW : 1 < W)
      (ht : (bsdmSamples p phi theta).mapM (bsdmTask h (p.length + h.numSamples - 1)) = .ok tasks)
      (hrun : Relation.ReflTransGen (Step (lockOf W)) (Pool.init W (tasks.map BsdmTask.body)) s) (hfin : s.Final) :
      RenderBsdm lockOf cpus p phi theta h jobs
        (.ok ((List.range (p.length + h.numSamples - 1)).map fun t => s.mem (t, 0), (List.range (p.length + h.numSamples - 1)).map fun t => s.mem (t, 1)))

/-! ### `pseudo_intensity` -/

/-- `np.hanning(M)` (`parsa.py` 428, 482). -/
noncomputable def hanning (M : ℕ) : List ℝ :=
  if M = 1 then [1] else (List.range M).map fun i : ℕ => 0.5 + 0.5 * cos (π * (2 * i + 1 - M) / (M - 1))

/-- `np.trapz` with unit spacing (`parsa.py` 395-397, 459-461). -/
noncomputable def trapz (x : List ℝ) : ℝ := (List.zipWith (fun a b => (a + b) / 2) x x.tail).sum

/-- `np.trapz(win * W[i:i + buf] * X[i:i + buf])` (`parsa.py` 395-397, 459-461). -/
noncomputable def windowed (win W X : List ℝ) (i : ℕ) : ℝ :=
  trapz (List.zipWith (· * ·) (List.zipWith (· * ·) win ((W.drop i).take win.length)) ((X.drop i).take win.length))

/-- The three stores of window `i`: row `i + win_len // 2`, one per column (`parsa.py` 394-397, 458-461). -/
noncomputable def intensityWrites (win W X Y Z : List ℝ) (i : ℕ) : List ((ℕ × Fin 3) × ℝ) :=
  [((i + win.length / 2, 0), windowed win W X i), ((i + win.length / 2, 1), windowed win W Y i), ((i + win.length / 2, 2), windowed win W Z i)]

/-- All stores in the order of the serial loop, `range(len(ambi_b) - win_len)` (`parsa.py` 457, 468). -/
noncomputable def allWrites (n : ℕ) (win W X Y Z : List ℝ) : List ((ℕ × Fin 3) × ℝ) :=
  (List.range (n - win.length)).flatMap (intensityWrites win W X Y Z)

/-- A sequence of stores to the zero array (`parsa.py` 452-453, 465-467). -/
def applyWrites (ws : List ((ℕ × Fin 3) × ℝ)) : ℕ × Fin 3 → ℝ := ws.foldl (fun m x => Function.update m x.1 x.2) fun _ => 0

/-- `parsa.py` 480-485 for one column: smoothing with `np.hanning(smoothing_order)`, mode `'same'`. -/
noncomputable def smoothColumn (order : ℕ) (x : List ℝ) : List ℝ := convKeep .same x (hanning order)

/-- `parsa.py` 480-486: smoothing and conversion to spherical coordinates of the intensity vectors of `n` samples. -/
noncomputable def intensityOut (n order : ℕ) (I : ℕ × Fin 3 → ℝ) : Py (List (ℝ × ℝ × ℝ)) :=
  let col : Fin 3 → List ℝ := fun c => (List.range n).map fun t => I (t, c)
  if order = 0 then .ok ((List.range n).map fun t => Utils.cart2sph (I (t, 0)) (I (t, 1)) (I (t, 2)) false true)
  else if order % 2 = 0 then .error .assertionError
  else .ok ((List.range n).map fun t =>
    Utils.cart2sph ((smoothColumn order (col 0)).getD t 0) ((smoothColumn order (col 1)).getD t 0) ((smoothColumn order (col 2)).getD t 0) false true)

/-- Possible results of `pseudo_intensity` (`parsa.py` 400-486) for the (band-passed, 444-450) signals `W X Y Z` of length `n`: the serial
loop for one job, otherwise the stores of all windows in any order (every interleaving of the workers is such an order).
Simplification: the four signals are as long as `ambi_b`. -/
inductive PseudoIntensity (cpus : ℕ) (W X Y Z : List ℝ) (winLen order : ℕ) (jobs : Option ℤ) : Py (List (ℝ × ℝ × ℝ)) → Prop
  | evenWindow (h : winLen % 2 = 0) : PseudoIntensity cpus W X Y Z winLen order jobs (.error .assertionError)
  | noJobs (h : winLen % 2 = 1) (hj : jobs.getD cpus < 1) : PseudoIntensity cpus W X Y Z winLen order jobs (.error .valueError)
  | serial (h : winLen % 2 = 1) (hj : jobs.getD cpus = 1) :
      PseudoIntensity cpus W X Y Z winLen order jobs (intensityOut W.length order (applyWrites (allWrites W.length (hanning winLen) W X Y Z)))
  | parallel (h : winLen % 2 = 1) (hj : 1 < jobs.getD cpus) (sched : List ((ℕ × Fin 3) × ℝ)) (hs : sched.Perm (allWrites W.length (hanning winLen) W X Y Z)) :
      PseudoIntensity cpus W X Y Z winLen order jobs (intensityOut W.length order (applyWrites sched))

end Verif.Parsa
