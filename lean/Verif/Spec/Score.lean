import Verif.Spec.Calculus
import Mathlib.MeasureTheory.Integral.Bochner.Basic
import Mathlib.MeasureTheory.Measure.Haar.OfBasis
import Mathlib.MeasureTheory.Constructions.Pi

/-!
# Specification: score functions and the distribution of the random vectors
-/

namespace Coreax.Spec

open MeasureTheory

variable {d : ℕ}

/-- `ψ` is the score of the density `p` (not necessarily normalised): `∇p = p ψ`; where `p` is positive, `ψ = ∇ log p`. -/
def IsScore (p : (Fin d → ℝ) → ℝ) (ψ : (Fin d → ℝ) → Fin d → ℝ) : Prop :=
  (∀ x, 0 ≤ p x) ∧ ∀ x, IsGrad p (fun i => p x * ψ x i) x

/-- What integration by parts needs: a differentiable field `s`, which with its derivatives is integrable under `p`, and which is
square integrable, as is the score. -/
structure Regular (p : (Fin d → ℝ) → ℝ) (ψ s : (Fin d → ℝ) → Fin d → ℝ) : Prop where
  diff : Differentiable ℝ s
  int_deriv : ∀ i j, Integrable fun x => p x * fderiv ℝ s x (Pi.single j 1) i
  int : ∀ i, Integrable fun x => p x * s x i
  int_sq : ∀ i, Integrable fun x => p x * s x i ^ 2
  int_score : ∀ i, Integrable fun x => p x * ψ x i ^ 2

/-- `C` is the matrix of second moments of the law `ν` of the random vectors. -/
def SecondMoments (ν : Measure (Fin d → ℝ)) (C : Fin d → Fin d → ℝ) : Prop :=
  ∀ i j, Integrable (fun v => v i * v j) ν ∧ ∫ v, v i * v j ∂ν = C i j

/-- The matrix `C` applied to a vector. -/
def mulVec (C : Fin d → Fin d → ℝ) (a : Fin d → ℝ) : Fin d → ℝ := fun i => ∑ j, C i j * a j

/-- The quadratic form of `C`. -/
def quad (C : Fin d → Fin d → ℝ) (a : Fin d → ℝ) : ℝ := ∑ i, ∑ j, C i j * a i * a j

/-- The squared Euclidean length. -/
def sqLen (a : Fin d → ℝ) : ℝ := ∑ i, a i ^ 2

end Coreax.Spec
