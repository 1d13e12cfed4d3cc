import Verif.Model.Score
import Verif.Model.Util
import Verif.Model.Metrics
import Verif.Model.Greedy
import Verif.Model.MapReduce

/-!
# Model of the video examples

`examples/pounce.py`, `examples/pounce_map_reduce.py`, `benchmark/pounce_benchmark.py`.
-/

namespace Coreax

/-- What aborts the scripts: a `ValueError` (or another error of the library), or NumPy's `IndexError`. -/
inductive ScriptErr
  | library (e : Err)
  | indexError
  deriving DecidableEq

/-- An index of NumPy: negative indices count from the end, others outside the array raise `IndexError`. -/
def npIndex (n : ℕ) (i : ℤ) : Except ScriptErr (Fin n) :=
  if h : 0 ≤ i ∧ i < n then .ok ⟨i.toNat, by omega⟩
  else if h : -(n : ℤ) ≤ i ∧ i < 0 then .ok ⟨(i + n).toNat, by omega⟩
  else .error .indexError

/-- The array of indices, all checked before anything is read or written. -/
def npIndices (n : ℕ) : List ℤ → Except ScriptErr (List (Fin n))
  | [] => .ok []
  | i :: is => do
    let j ← npIndex n i
    let js ← npIndices n is
    .ok (j :: js)

/-- `raw_data[indices]`; `/repo/examples/pounce.py:161`, `/repo/benchmark/pounce_benchmark.py:110`. -/
def npTake {F : Type} {n : ℕ} (x : Fin n → F) (idx : List ℤ) : Except ScriptErr (List F) := do
  let js ← npIndices n idx
  .ok (js.map x)

/-- `y = np.zeros(n); y[indices] = 1.0`; `/repo/examples/pounce.py:170-171, 172-173`. -/
def npSetOnes (n : ℕ) (idx : List ℤ) : Except ScriptErr (Fin n → ℕ) := do
  let js ← npIndices n idx
  .ok (fun t => if t ∈ js then 1 else 0)

/-- `jnp.sort` of an array of integers. -/
def sortIdx {m : ℕ} (idx : Fin m → ℤ) : List ℤ := (List.ofFn idx).insertionSort (· ≤ ·)

/-- `jnp.intersect1d`: the common values, sorted and without repeats. -/
def intersect1d (a b : List ℤ) : List ℤ := ((a.filter fun v => decide (v ∈ b)).dedup).insertionSort (· ≤ ·)

/-- `action_frames = np.arange(63, 85)`; `/repo/examples/pounce.py:168`, `/repo/benchmark/pounce_benchmark.py:120`. -/
def actionFrames : List ℤ := (List.range (85 - 63)).map fun i : ℕ => (63 : ℤ) + (i : ℤ)

/-- The two rows of bars on a chart with `len` columns; `/repo/examples/pounce.py:168-173`,
`/repo/benchmark/pounce_benchmark.py:51-56` (`plot_selected_frames`, where `len` is the number of frames). -/
def frameChart (len : ℕ) (idx : List ℤ) : Except ScriptErr ((Fin len → ℕ) × (Fin len → ℕ)) := do
  let y ← npSetOnes len idx
  let z ← npSetOnes len (intersect1d idx actionFrames)
  .ok (y, z)

/-- From the coreset to the outputs: the frames of the new video and the chart; `/repo/examples/pounce.py:134, 160-173` with
`len = num_points_length_scale_selection`, `/repo/benchmark/pounce_benchmark.py:108-123` with `len` the number of frames. -/
def videoOutputs {F : Type} {n m : ℕ} (raw : Fin n → F) (len : ℕ) (idx : Fin m → ℤ) :
    Except ScriptErr (List F × (Fin len → ℕ) × (Fin len → ℕ)) := do
  let shown ← npTake raw (sortIdx idx)
  let chart ← frameChart len (sortIdx idx)
  .ok (shown, chart)

/-- An error of the library aborts the script. -/
def liftErr {α : Type} : Except Err α → Except ScriptErr α
  | .error e => .error (.library e)
  | .ok a => .ok a

section
variable {F : Type} {d : ℕ}

/-- `_, *image_data = mimread(in_path)`: all frames but the first; `/repo/examples/pounce.py:85-86`. -/
def dropFirst {n : ℕ} (video : Fin (n + 1) → F) : Fin n → F := fun i => video i.succ

/-- `num_points_length_scale_selection`; `/repo/examples/pounce.py:105`. -/
def selectionSize (n : ℕ) : ℕ := min n 1000

/-- The Stein kernel used for the selection; `/repo/examples/pounce.py:105-130`: the median heuristic on the rows
drawn (`idx`, without replacement, so within range), a score estimated from the same rows.  `none` for the median heuristic is
NaN, which passes the comparisons of the checks; it occurs only with fewer than two rows, where asking for at least two frames raises `ValueError` anyway. -/
noncomputable def pounceKernel (big : ℝ) {n : ℕ} (rows : Fin n → Vec d) (idx : Fin (selectionSize n) → Fin n) :
    Except Err (KExpr d × ℝ) :=
  match medianHeuristic (fun t => rows (idx t)) with
  | none => .error .valueError
  | some l => do
    let score ← kdeMatch big l (fun t => rows (idx t))
    let base : KExpr d := .squaredExponential l 1
    base.check
    .ok (.stein base score, l)

/-- The reference kernel for the comparison; `/repo/examples/pounce.py:143-146`. -/
noncomputable def pounceReference (l : ℝ) : KExpr d := .squaredExponential l (1 / (l * Real.sqrt (2 * Real.pi)))

/-- `main`; `/repo/examples/pounce.py:54-188`: new video, chart and the discrepancy of the coreset.  `pca` is
the projection onto the principal components (external), `idx` and `ord` the drawn rows and the scatter order.  The random
coreset drawn for comparison does not influence these results; reading and saving files are left out. -/
noncomputable def pounceMain (big : ℝ) {n : ℕ} [NeZero n] (size : ℕ) (pca : (Fin n → F) → Fin n → Vec d) (video : Fin (n + 1) → F)
    (idx : Fin (selectionSize n) → Fin n) (ord : List (Fin (size + (size - size)))) :
    Except ScriptErr (List F × ((Fin (selectionSize n) → ℕ) × (Fin (selectionSize n) → ℕ)) × ℝ) := do
  let raw := dropFirst video
  let rows := pca raw
  let (kernel, l) ← liftErr (pounceKernel big rows idx)
  let data : Data n (Vec d) ℝ := Data.ofArray rows
  let (coreset, _) ← liftErr (herdingReduce big kernel.sem.compute none true (.leaf none) size data none ord)
  let points : Data size (Vec d) ℝ := ⟨(data.getItem coreset.data).data, coreset.weights⟩
  liftErr (pounceReference l : KExpr d).check
  let mmd ← liftErr (mmdCompute big (pounceReference l : KExpr d).sem.compute data points (.leaf none))
  let (shown, chart) ← videoOutputs raw (selectionSize n) coreset.data
  .ok (shown, chart, mmd)

end

end Coreax
