import Mathlib.Data.Matrix.Mul
import Mathlib.Algebra.Order.Field.Basic

/-!
# Specification: least squares

Nothing here mentions the model.
-/

namespace Coreax.Spec

open Matrix

variable {K : Type*} [Field K]

/-- `X` is the solution of least norm among those minimising `‖M X - B‖` column by column: it satisfies the normal equations
and lies in the row space of `M`. -/
structure IsMinNormLstsq {n m q : ℕ} (M : Matrix (Fin n) (Fin m) K) (B : Matrix (Fin n) (Fin q) K)
    (X : Matrix (Fin m) (Fin q) K) : Prop where
  normal : Mᵀ * (M * X) = Mᵀ * B
  rowSpace : ∃ Y : Matrix (Fin n) (Fin q) K, X = Mᵀ * Y

/-- Every eigenvalue of `M` is zero or between `c · b` and `b`. -/
def SpectralGap [LinearOrder K] {n : ℕ} (M : Matrix (Fin n) (Fin n) K) (c b : K) : Prop :=
  ∀ (v : Fin n → K) (μ : K), v ≠ 0 → M *ᵥ v = μ • v → μ = 0 ∨ c * b ≤ μ ∧ μ ≤ b

end Coreax.Spec
