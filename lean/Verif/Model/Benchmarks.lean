import Verif.Model.Thinning
import Verif.Model.Timing
import Verif.Model.Util

/-!
# Model of the benchmark scripts in `/repo/benchmark`

`blobs_benchmark.py` (construction of the solvers, averages over seeds), `blobs_benchmark_visualiser.py` (highlighted cells),
`mnist_benchmark.py` (batches, evaluation, early stopping) and `mnist_benchmark_visualiser.py` (statistics over runs).

Plotting, downloading, UMAP and the neural network are not modelled: a training step, an evaluation step and the measured
values are parameters.
-/

namespace Coreax

/-! ### `blobs_benchmark.py`: the solvers -/

/-- The classes of the solvers. -/
inductive Method
  | kernelHerding | randomSample | rpCholesky | steinThinning | kernelThinning | compressPlusPlus | iterativeHerding
  deriving DecidableEq, Repr

/-- A solver as constructed: name, class, `coreset_size`, the seed of `random_key`, and `delta` where the class has them. The kernels and the parameters of
iterative herding are left out. -/
structure SolverConfig where
  name : String
  method : Method
  size : ℕ
  seed : Option ℤ
  delta : Option ℝ

/-- `setup_solvers`; `/repo/benchmark/blobs_benchmark.py:118-220`. The parameters are in the order of the signature, `random_seed` with its default. -/
noncomputable def setupSolvers (coresetSize : ℕ) (delta : ℝ) (randomSeed : ℤ := 45) : List SolverConfig :=
  [⟨"KernelHerding", .kernelHerding, coresetSize, none, none⟩,
   ⟨"RandomSample", .randomSample, coresetSize, some randomSeed, none⟩,
   ⟨"RPCholesky", .rpCholesky, coresetSize, some randomSeed, none⟩,
   ⟨"SteinThinning", .steinThinning, coresetSize, none, none⟩,
   ⟨"KernelThinning", .kernelThinning, coresetSize, some randomSeed, some delta⟩,
   ⟨"CompressPlusPlus", .compressPlusPlus, coresetSize, some randomSeed, some delta⟩,
   ⟨"ProbabilisticIterativeHerding", .iterativeHerding, coresetSize, some randomSeed, none⟩,
   ⟨"IterativeHerding", .iterativeHerding, coresetSize, some randomSeed, none⟩,
   ⟨"CubicProbIterativeHerding", .iterativeHerding, coresetSize, some randomSeed, none⟩]

/-- The call `setup_solvers(size, sq_exp_kernel, stein_kernel, seed)` in `main`: the fourth positional parameter is `delta`;
`/repo/benchmark/blobs_benchmark.py:334`. -/
noncomputable def blobsSolvers (seed : ℤ) (size : ℕ) : List SolverConfig := setupSolvers size seed

/-- `jnp.sqrt(2 * jnp.log(2 / delta))`: NaN for a negative argument of the root or of the logarithm; `/repo/coreax/solvers/coresubset.py:1474, 1474`.
(`delta = 0` raises `ZeroDivisionError`; here it counts as NaN.) -/
noncomputable def ktConstant (delta : ℝ) : Ext ℝ :=
  if delta ≤ 0 then .nan else if thinningRadicand delta < 0 then .nan else .fin (Real.sqrt (thinningRadicand delta))

/-! ### `blobs_benchmark.py`: averages -/

section Tables
variable {K : Type} [Field K] [LinearOrder K]

/-- The keys of the dictionary of `compute_solver_metrics`; `/repo/benchmark/blobs_benchmark.py:257-263`. -/
inductive BlobMetric
  | unweightedMmd | unweightedKsd | weightedMmd | weightedKsd | time
  deriving DecidableEq, Repr

/-- One pass of the loop over `results.items()`: the entry of a solver is created when it is first seen, then every value is appended;
`/repo/benchmark/blobs_benchmark.py:342-349`. -/
def appendResult (agg : List (String × (BlobMetric → List (Ext K)))) (r : String × (BlobMetric → Ext K)) :
    List (String × (BlobMetric → List (Ext K))) :=
  let agg := if r.1 ∈ agg.map Prod.fst then agg else agg ++ [(r.1, fun _ => [])]
  agg.map fun p => if p.1 = r.1 then (p.1, fun q => p.2 q ++ [r.2 q]) else p

/-- The loops over seeds and sizes. `results seed size` is the dictionary of `compute_metrics`; `/repo/benchmark/blobs_benchmark.py:311-349`. The sizes are the keys
of the dictionary (no size twice). -/
def aggregateBlobs {S : Type} (results : S → ℕ → List (String × (BlobMetric → Ext K))) (seeds : List S) (sizes : List ℕ) :
    List (ℕ × List (String × (BlobMetric → List (Ext K)))) :=
  seeds.foldl (fun agg seed => agg.map fun p => (p.1, (results seed p.1).foldl appendResult p.2)) (sizes.map fun size => (size, []))

/-- `sum(values) / len(values)`. -/
def pyAverage (values : List (Ext K)) : Ext K := values.foldl (· + ·) (.fin 0) / .fin (values.length : K)

/-- `final_results`; `/repo/benchmark/blobs_benchmark.py:352-358`. -/
def finalBlobs {S : Type} (results : S → ℕ → List (String × (BlobMetric → Ext K))) (seeds : List S) (sizes : List ℕ) :
    List (ℕ × List (String × (BlobMetric → Ext K))) :=
  (aggregateBlobs results seeds sizes).map fun p => (p.1, p.2.map fun q => (q.1, fun metric => pyAverage (q.2 metric)))

/-! ### `blobs_benchmark_visualiser.py`: highlighted cells -/

/-- `min` of Python on a non-empty sequence of floats: the first value, replaced whenever a later one is less. -/
def pyMin (first : Ext K) (rest : List (Ext K)) : Ext K := rest.foldl (fun best x => if Ext.lt x best then x else best) first

/-- `==` of floats. -/
def Ext.eqF (x y : Ext K) : Bool := !x.isNan && decide (x = y)

/-- Which cells of a column are printed in bold; `/repo/benchmark/blobs_benchmark_visualiser.py:178-191`. -/
def boldCells : List (Ext K) → List Bool
  | [] => []
  | first :: rest => (first :: rest).map fun value => Ext.eqF value (pyMin first rest)

/-! ### `mnist_benchmark_visualiser.py`: statistics -/

/-- Mean, minimum, maximum and points of one algorithm and one size. -/
structure RunStatistics (K : Type) where
  mean : Ext K
  least : K
  greatest : K
  points : List K

/-- `np.mean`, `np.min` and `np.max` of a list: `np.min` of an empty list raises `ValueError`. Values are finite. -/
def runStatistics : List K → Except Err (RunStatistics K)
  | [] => .error .valueError
  | x :: l => .ok ⟨.fin ((x :: l).sum) / .fin (((x :: l).length : ℕ) : K), l.foldl min x, l.foldl max x, x :: l⟩

/-- The loop body of `compute_time_statistics` (and, for each of the two values of a run, of `compute_statistics`) for one algorithm and one size. `runs` is
`none` if the size is missing. `/repo/benchmark/mnist_benchmark_visualiser.py:79-98, 126-139`. -/
def sizeStatistics (runs : Option (List K)) : Except Err (RunStatistics K) :=
  match runs with
  | none => runStatistics []
  | some l => runStatistics (l.drop 1)

/-- `compute_time_statistics` for one algorithm: all sizes, the first error is raised; `/repo/benchmark/mnist_benchmark_visualiser.py:103-141`. -/
def algorithmStatistics (runs : ℕ → Option (List K)) : List ℕ → Except Err (List (RunStatistics K))
  | [] => .ok []
  | size :: sizes => do
    let s ← sizeStatistics (runs size)
    let rest ← algorithmStatistics runs sizes
    .ok (s :: rest)

/-- `compute_time_statistics`: all algorithms; `/repo/benchmark/mnist_benchmark_visualiser.py:103-141`. -/
def timeStatistics (sizes : List ℕ) : List (String × (ℕ → Option (List K))) → Except Err (List (String × List (RunStatistics K)))
  | [] => .ok []
  | (name, runs) :: rest => do
    let s ← algorithmStatistics runs sizes
    let r ← timeStatistics sizes rest
    .ok ((name, s) :: r)

end Tables

/-! ### `mnist_benchmark.py`: batches, evaluation, early stopping -/

section Mnist
variable {K : Type} [Field K] [LinearOrder K] {S R : Type}

/-- Rows `batch_idx * batch_size` up to `(batch_idx + 1) * batch_size`, a Python slice; `/repo/benchmark/mnist_benchmark.py:260-264, 290-294`. -/
def batchRows (rows : List R) (batchSize i : ℕ) : List R := (rows.drop (i * batchSize)).take batchSize

/-- `train_epoch`. A row is an image with its label; `step` is `train_step`, with loss and accuracy. Without a whole batch the division of `0.0` by the number of batches
raises `ZeroDivisionError`, as does a batch size of zero; `/repo/benchmark/mnist_benchmark.py:242-272`. -/
def trainEpoch (step : S → List R → S × K × K) (state : S) (rows : List R) (batchSize : ℕ) : Except Err (S × K × K) :=
  if batchSize = 0 then .error .zeroDivisionError
  else
    let numBatches := rows.length / batchSize
    if numBatches = 0 then .error .zeroDivisionError
    else
      let r := forLoop numBatches (fun (i : Fin numBatches) (s : S × K × K) =>
        let t := step s.1 (batchRows rows batchSize i)
        (t.1, s.2.1 + t.2.1, s.2.2 + t.2.2)) (state, 0, 0)
      .ok (r.1, r.2.1 / numBatches, r.2.2 / numBatches)

/-- `evaluate`; `eval` is `eval_step`: loss and accuracy of a batch; `/repo/benchmark/mnist_benchmark.py:275-299`. -/
def evaluateModel (eval : List R → K × K) (rows : List R) (batchSize : ℕ) : Except Err (K × K) :=
  if batchSize = 0 then .error .zeroDivisionError
  else
    let numBatches := rows.length / batchSize
    if numBatches = 0 then .error .zeroDivisionError
    else
      let r := forLoop numBatches (fun (i : Fin numBatches) (s : K × K) =>
        let t := eval (batchRows rows batchSize i)
        (s.1 + t.1, s.2 + t.2)) (0, 0)
      .ok (r.1 / numBatches, r.2 / numBatches)

/-- Accuracy of `compute_metrics`: the mean of `argmax(logits) == labels`; `/repo/benchmark/mnist_benchmark.py:96-106`. `correct` says whether the prediction for a row is right. -/
def batchAccuracy (correct : R → Bool) (rows : List R) : K := ((rows.filter correct).length : K) / (rows.length : K)

/-- `config["batch_size"] = min(len(coreset_indices) // 2, 64)`; `/repo/benchmark/mnist_benchmark.py:549`. -/
def mnistBatchSize (coresetSize : ℕ) : ℕ := min (coresetSize / 2) 64

/-- The variables of the loop of `train_and_evaluate`. -/
structure StopState (S K : Type) where
  state : S
  bestAccuracy : K
  best : Option S
  patience : ℕ

/-- One epoch of `train_and_evaluate`: `epoch` is `train_epoch`, `accuracy` the accuracy of `evaluate`; `/repo/benchmark/mnist_benchmark.py:339-351`. -/
def stopStep (epoch : S → S) (accuracy : S → K) (minDelta : K) (s : StopState S K) : StopState S K :=
  let state := epoch s.state
  if accuracy state > s.bestAccuracy + minDelta then ⟨state, accuracy state, some state, 0⟩
  else ⟨state, s.bestAccuracy, s.best, s.patience + 1⟩

/-- The loop: at most `epochs` rounds, left once the counter reaches the patience. The second result is the number of epochs trained; `/repo/benchmark/mnist_benchmark.py:338-355`. -/
def stopLoop (epoch : S → S) (accuracy : S → K) (minDelta : K) (patience : ℕ) : ℕ → StopState S K → StopState S K × ℕ
  | 0, s => (s, 0)
  | n + 1, s =>
    let s' := stopStep epoch accuracy minDelta s
    if s'.patience ≥ patience then (s', 1)
    else
      let r := stopLoop epoch accuracy minDelta patience n s'
      (r.1, r.2 + 1)

/-- `train_and_evaluate`: the state that is reported on and the number of epochs; `/repo/benchmark/mnist_benchmark.py:332-369`. (A train state is truthy, so `best_state or state` is
the best state unless it is `None`.) -/
def trainAndEvaluate (epoch : S → S) (accuracy : S → K) (minDelta : K) (patience epochs : ℕ) (init : S) : S × ℕ :=
  let r := stopLoop epoch accuracy minDelta patience epochs ⟨init, 0, none, 0⟩
  (r.1.best.getD r.1.state, r.2)

end Mnist

end Coreax
