import Verif.Model.Benchmarks
import Verif.Model.Kernel
import Verif.Model.Weights
import Verif.Model.Metrics

/-!
# Model of `compute_solver_metrics` of the blobs benchmark

`/repo/benchmark/blobs_benchmark.py`. The solver is represented by the coresubset it returns, the clock by the elapsed time.
The kernels are set up in lines 60-74 (squared exponential, the output scale left at 1) and 77-114 (Stein kernel on it, with the score of a kernel density estimate); the estimate is not modelled, the theorems hold for every score.
-/

namespace Coreax

section
variable {d : ℕ} {Y : Type}

/-- The weights as real numbers, if none of them is infinite or NaN. -/
noncomputable def finiteWeights {m : ℕ} (w : Fin m → Ext ℝ) : Option (Fin m → ℝ) :=
  open Classical in if h : ∃ v : Fin m → ℝ, ∀ i, w i = .fin (v i) then some (Classical.choose h) else none

/-- `compute_solver_metrics` after `reduce`; `/repo/benchmark/blobs_benchmark.py:222-263`, with `solve_weights` (`/repo/coreax/coreset.py:325-329`) and `compute_metric`
(`/repo/coreax/coreset.py:73-77`), both without keyword arguments: `epsilon=1e-10`, no block size. The kernel of the metric `KSD` is a Stein kernel already, `stein`
is its `compute_elementwise`. If a weight is not finite, the weighted metrics are given as NaN. -/
noncomputable def computeSolverMetrics (qp : SimplexQP ℝ) (big : ℝ) (k stein : Vec d → Vec d → ℝ) (c : Coresubset (Vec d) Y ℝ) [NeZero c.n] (elapsed : ℝ) :
    Except Err (BlobMetric → Ext ℝ) := do
  let unweightedMmd ← mmdCompute big k c.pre.toData c.points.toData (.leaf none)
  let unweightedKsd ← ksdCompute big stein c.points.toData (.leaf none) none none
  let weights ← mmdWeightsSolve qp big k c.pre c.points (1 / 10 ^ 10) (.leaf none)
  match finiteWeights weights with
  | none => .ok fun
    | .unweightedMmd => .fin unweightedMmd
    | .unweightedKsd => .fin unweightedKsd
    | .weightedMmd => .nan
    | .weightedKsd => .nan
    | .time => .fin elapsed
  | some v =>
    let weighted : Coresubset (Vec d) Y ℝ := { c with indices := ⟨c.indices.data, v⟩ }
    let _ : NeZero weighted.n := ‹NeZero c.n›
    let weightedMmd ← mmdCompute big k weighted.pre.toData weighted.points.toData (.leaf none)
    let weightedKsd ← ksdCompute big stein weighted.points.toData (.leaf none) none none
    .ok fun
      | .unweightedMmd => .fin unweightedMmd
      | .unweightedKsd => .fin unweightedKsd
      | .weightedMmd => .fin weightedMmd
      | .weightedKsd => .fin weightedKsd
      | .time => .fin elapsed

end

end Coreax
