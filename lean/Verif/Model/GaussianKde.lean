import Verif.Model.Kernel
import Mathlib.Analysis.SpecialFunctions.Pow.Real
import Mathlib.Analysis.SpecialFunctions.Log.Basic

/-!
# Gaussian density estimates

`jax.scipy.stats.gaussian_kde` is used for the score in `benchmark/blobs_benchmark.py` and for the regularisation of Stein thinning.  The
library class is modelled in exact arithmetic from its documented formulas.  `jnp.linalg.cholesky` is a parameter: a matrix `W` whose product with its
transpose is the precision matrix.
-/

namespace Coreax

variable {n d : ℕ}

/-- The weights after `weights /= jnp.sum(weights)` in `gaussian_kde.__init__`; equal weights without an argument (`w i = 1`);
`/repo/benchmark/blobs_benchmark.py:92`, `/repo/coreax/solvers/coresubset.py:508-509`. -/
noncomputable def kdeWeights (w : Fin n → ℝ) (i : Fin n) : ℝ := w i / ∑ j, w j

/-- The weighted mean that `jnp.cov` subtracts. -/
noncomputable def kdeMean (w : Fin n → ℝ) (x : Fin n → Vec d) (k : Fin d) : ℝ := ∑ i, kdeWeights w i * x i k

/-- `jnp.cov(dataset, bias=False, aweights=weights)`. -/
noncomputable def kdeCov (w : Fin n → ℝ) (x : Fin n → Vec d) (k l : Fin d) : ℝ :=
  (∑ i, kdeWeights w i * (x i k - kdeMean w x k) * (x i l - kdeMean w x l)) / (1 - ∑ i, kdeWeights w i ^ 2)

/-- The bandwidth factor (Scott's rule). -/
noncomputable def kdeFactor (w : Fin n → ℝ) (d : ℕ) : ℝ := (1 / ∑ i, kdeWeights w i ^ 2) ^ (-1 / ((d : ℝ) + 4))

/-- `gaussian_kde.logpdf` at one point, with the Cholesky factor `W` of the precision matrix;
`/repo/benchmark/blobs_benchmark.py:107-108`, `/repo/coreax/solvers/coresubset.py:508-509`. -/
noncomputable def kdeLogpdf (W : Fin d → Fin d → ℝ) (w : Fin n → ℝ) (x : Fin n → Vec d) (z : Vec d) : ℝ :=
  let logNorm := ∑ k, Real.log (W k k) - 1 / 2 * d * Real.log (2 * Real.pi)
  let white : Vec d → Vec d := fun v l => ∑ k, v k * W k l
  Real.log (∑ i, Real.exp (Real.log (kdeWeights w i) + (logNorm - 1 / 2 * ∑ l, (white (x i) l - white z l) ^ 2)))

/-- The score function of the benchmark, the gradient of `logpdf_single`; `/repo/benchmark/blobs_benchmark.py:95-110`. -/
noncomputable def blobsScore (W : Fin d → Fin d → ℝ) (x : Fin n → Vec d) : Vec d → Vec d := autoGrad (kdeLogpdf W (fun _ => 1) x)

end Coreax
