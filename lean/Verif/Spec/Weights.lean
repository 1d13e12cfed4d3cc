import Mathlib.Algebra.Order.Field.Basic
import Mathlib.Algebra.BigOperators.Fin

/-!
# Specification of quadrature weights

Nothing here mentions the model.
-/

namespace Coreax.Spec

variable {K : Type*} [Field K] [LinearOrder K] {X : Type*}

/-- The squared RKHS distance between `∑ w_i k(x_i, ·)` and `∑ v_j k(y_j, ·)`, expanded; no normalisation. -/
def distSq (k : X → X → K) {n m : ℕ} (x : Fin n → X) (w : Fin n → K) (y : Fin m → X) (v : Fin m → K) : K :=
  ∑ i, ∑ j, w i * w j * k (x i) (x j) - 2 * ∑ i, ∑ j, w i * v j * k (x i) (y j) + ∑ i, ∑ j, v i * v j * k (y i) (y j)

/-- The probability simplex. -/
def OnSimplex {m : ℕ} (v : Fin m → K) : Prop := (∀ i, 0 ≤ v i) ∧ ∑ i, v i = 1

/-- The objective of a quadratic programme. -/
def qpObjective {m : ℕ} (Q : Fin m → Fin m → K) (c v : Fin m → K) : K := 1 / 2 * ∑ i, ∑ j, v i * Q i j * v j + ∑ i, c i * v i

/-- The kernel matrix on `y` is strictly positive definite after adding `eps` to its diagonal. -/
def StrictPD (k : X → X → K) (eps : K) {m : ℕ} (y : Fin m → X) : Prop :=
  ∀ v : Fin m → K, (∃ i, v i ≠ 0) → 0 < ∑ i, ∑ j, v i * v j * k (y i) (y j) + eps * ∑ i, v i ^ 2

end Coreax.Spec
