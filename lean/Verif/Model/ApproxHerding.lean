import Verif.Model.Greedy
import Verif.Model.Approximation

/-!
# Kernel herding with an approximate kernel
-/

namespace Coreax

variable {K X : Type*} [Field K] [LinearOrder K] [Zero X]

/-- `KernelHerding.reduce` (`/repo/coreax/solvers/coresubset.py:290-297, 327-331`) whose kernel is an `ApproximateKernel`: of the methods of the kernel that
herding calls, only `gramian_row_mean` is overridden (here: `approx`, one of `nystromRowMean`, `monteCarloRowMean`, `annchorRowMean`; it takes `x.data`, so
that the weights are dropped, and ignores the block size), `compute` and `compute_mean` are those of the base kernel `k`
(`/repo/coreax/approximation.py:109-142, 176-341`). -/
def herdingReduceApprox (big : K) (k : X → X → K) {n : ℕ} [NeZero n] (approx : (Fin n → X) → Except Err (Fin n → K)) (unique : Bool)
    (bs : PyTree (Option ℤ)) (size : ℕ) (pre : Data n X K) (ord : List (Fin (size + (size - size)))) : Except Err (Data size ℤ K × List K) :=
  match (initialCoresubset 0 size n : Except Err (Data size ℤ K)) with
  | .error e => .error e
  | .ok c =>
    match approx pre.data with
    | .error e => .error e
    | .ok r => herdingRefine big k none unique bs size pre c (some (List.ofFn r)) ord

end Coreax
