import Verif.Spec.Kernel

/-!
# Specification: strictly positive definite kernels

Nothing here mentions the model.
-/

namespace Coreax.Spec

variable {X : Type*}

/-- A strictly positive definite kernel: on distinct points only the zero combination has norm zero. -/
def IsStrict (k : X → X → ℝ) : Prop :=
  IsPSD k ∧ ∀ (n : ℕ) (x : Fin n → X) (c : Fin n → ℝ), Function.Injective x → ∑ i, ∑ j, c i * c j * k (x i) (x j) = 0 → ∀ i, c i = 0

end Coreax.Spec
