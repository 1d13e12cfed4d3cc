import Mathlib.Analysis.Calculus.FDeriv.Basic
import Mathlib.Topology.Algebra.Module.FiniteDimension
import Mathlib.Analysis.Normed.Module.FiniteDimension

/-!
# Specification: gradients and divergences of functions of a vector

Nothing here mentions the model.
-/

namespace Coreax.Spec

/-- The linear map `v ↦ ∑ i, g i * v i`. -/
noncomputable def gradMap {d : ℕ} (g : Fin d → ℝ) : (Fin d → ℝ) →L[ℝ] ℝ :=
  ∑ i, g i • ContinuousLinearMap.proj (R := ℝ) (φ := fun _ : Fin d => ℝ) i

/-- `g` is the gradient of `f` at `x`: `f` is (Fréchet) differentiable there, with partial derivatives `g`. -/
def IsGrad {d : ℕ} (f : (Fin d → ℝ) → ℝ) (g : Fin d → ℝ) (x : Fin d → ℝ) : Prop := HasFDerivAt f (gradMap g) x

/-- `v` is the divergence of the vector field `F` at `x`: every component of `F` is differentiable there and `v` is the
sum over `i` of the `i`-th partial derivative of the `i`-th component. -/
def IsDiv {d : ℕ} (F : (Fin d → ℝ) → Fin d → ℝ) (v : ℝ) (x : Fin d → ℝ) : Prop :=
  ∃ G : Fin d → Fin d → ℝ, (∀ i, IsGrad (fun x' => F x' i) (G i) x) ∧ v = ∑ i, G i i

end Coreax.Spec
