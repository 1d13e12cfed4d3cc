import Verif.Model.Mean
import Verif.Model.Coreset
import Verif.Model.Metrics
import Verif.Model.Random

/-!
# Model of the weights optimisers

`/repo/coreax/weights.py`.  The QP solver (`jaxopt.OSQP`) and `jnp.linalg.solve` are parameters.
-/

namespace Coreax

section
variable {K : Type*} [Field K] [LinearOrder K]

/-- `OSQP.run(...).params.primal` for the objective `1/2 wᵀ Q w + cᵀ w` on the simplex (external): any floats. -/
abbrev SimplexQP (K : Type*) := ∀ {m : ℕ}, (Fin m → Fin m → K) → (Fin m → K) → (Fin m → Ext K)

/-- The last two lines of `solve_qp`: clip at zero, divide by the sum; `/repo/coreax/weights.py:99-101`. -/
def clipNormalize {m : ℕ} (primal : Fin m → Ext K) : Fin m → Ext K :=
  fun i => (primal i).max0 / Ext.sum (fun j => (primal j).max0)

/-- `solve_qp`; `/repo/coreax/weights.py:54-101`: `q_array` is the Gram matrix, `c` the negated mean. -/
def solveQP (qp : SimplexQP K) {m : ℕ} (kernelMM : Fin m → Fin m → K) (rowMean : Fin m → K) : Fin m → Ext K :=
  clipNormalize (qp kernelMM (fun i => -rowMean i))

variable {X Y : Type*} [Zero X]

/-- `_prepare_kernel_system`; `/repo/coreax/weights.py:108-147`. `sup` of a dataset is `none` exactly for `type(...) is Data`; kernels
are always scalar valued here.  The raw arrays get unit weights in `compute_mean`. -/
def prepareKernelSystem (big : K) (k : X → X → K) {n m : ℕ} (dataset : DSet n X Y K) (coreset : DSet m X Y K) (eps : K)
    (bs : PyTree (Option ℤ)) : Except Err ((Fin m → K) × (Fin m → Fin m → K)) :=
  if dataset.sup.isNone && coreset.sup.isNone then
    match computeMean big k (Data.ofArray dataset.data) (Data.ofArray coreset.data) .zero bs with
    | .error e => .error e
    | .ok mean => .ok (asVec m mean, fun i j => k (coreset.data i) (coreset.data j) + eps * if i = j then 1 else 0)
  else .error .valueError

/-- `SBQWeightsOptimiser.solve`; `/repo/coreax/weights.py:213-251`. -/
def sbqSolve (solve : LinSolve K) (big : K) (k : X → X → K) {n m : ℕ} (dataset : DSet n X Y K) (coreset : DSet m X Y K) (eps : K)
    (bs : PyTree (Option ℤ)) : Except Err (Fin m → K) :=
  match prepareKernelSystem big k dataset coreset eps bs with
  | .error e => .error e
  | .ok (kcd, kcc) => .ok (fun i => solve (Matrix.of kcc) (Matrix.of fun j (_ : Fin 1) => kcd j) i 0)

/-- `MMDWeightsOptimiser.solve`; `/repo/coreax/weights.py:278-312`. -/
def mmdWeightsSolve (qp : SimplexQP K) (big : K) (k : X → X → K) {n m : ℕ} (dataset : DSet n X Y K) (coreset : DSet m X Y K) (eps : K)
    (bs : PyTree (Option ℤ)) : Except Err (Fin m → Ext K) :=
  match prepareKernelSystem big k dataset coreset eps bs with
  | .error e => .error e
  | .ok (kcd, kcc) => .ok (solveQP qp kcc kcd)

end

end Coreax
