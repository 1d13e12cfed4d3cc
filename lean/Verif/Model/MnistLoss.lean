import Verif.Model.Recombination
import Mathlib.Analysis.SpecialFunctions.Log.Basic

/-!
# Loss and accuracy of the MNIST benchmark

The number of classes is `c` (ten in the script), the batch has `n` rows.  The library functions `jax.nn.one_hot`, `jax.nn.log_softmax`
and `optax.softmax_cross_entropy` are modelled in exact arithmetic.
-/

namespace Coreax

variable {c : ℕ} [NeZero c]

/-- A row of `jax.nn.one_hot(labels, num_classes=c)`: zero for a label that is no class; `/repo/benchmark/mnist_benchmark.py:92`. -/
def oneHot (c : ℕ) (label : ℤ) (j : Fin c) : ℝ := if label = (j : ℤ) then 1 else 0

/-- `jax.nn.log_softmax`, which takes the largest logit off first. -/
noncomputable def logSoftmax (x : Fin c → ℝ) (j : Fin c) : ℝ :=
  let shifted : Fin c → ℝ := fun k => x k - x (argmaxFirst x)
  shifted j - Real.log (∑ k, Real.exp (shifted k))

/-- `optax.softmax_cross_entropy` of a row. -/
noncomputable def softmaxCrossEntropy (x target : Fin c → ℝ) : ℝ := -∑ j, target j * logSoftmax x j

/-- `cross_entropy_loss`; `/repo/benchmark/mnist_benchmark.py:83-93`. -/
noncomputable def crossEntropyLoss {n : ℕ} (logits : Fin n → Fin c → ℝ) (labels : Fin n → ℤ) : ℝ :=
  (∑ i, softmaxCrossEntropy (logits i) (oneHot c (labels i))) / n

/-- The accuracy of `compute_metrics`; `/repo/benchmark/mnist_benchmark.py:96-106`. -/
noncomputable def labelAccuracy {n : ℕ} (logits : Fin n → Fin c → ℝ) (labels : Fin n → ℤ) : ℝ :=
  (∑ i, if ((argmaxFirst (logits i) : ℕ) : ℤ) = labels i then (1 : ℝ) else 0) / n

/-- `compute_metrics`, also `eval_step` with the logits of the model; `/repo/benchmark/mnist_benchmark.py:96-106, 224-239`. -/
noncomputable def computeMetrics {n : ℕ} (logits : Fin n → Fin c → ℝ) (labels : Fin n → ℤ) : ℝ × ℝ :=
  (crossEntropyLoss logits labels, labelAccuracy logits labels)

end Coreax
