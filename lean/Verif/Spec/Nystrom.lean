import Mathlib.LinearAlgebra.Span.Defs
import Mathlib.Algebra.Module.Pi
import Mathlib.Data.Real.Basic
import Mathlib.Algebra.BigOperators.Fin

/-!
# Specification: low-rank approximation of a Gram matrix from selected columns

Nothing here mentions the model.
-/

namespace Coreax.Spec

variable {n : ℕ}

/-- The quadratic form of a matrix is non-negative. -/
def NonnegForm (G : Fin n → Fin n → ℝ) : Prop := ∀ c : Fin n → ℝ, 0 ≤ ∑ i, ∑ j, c i * c j * G i j

/-- The linear combinations of the columns of `G` with index in `S`. -/
def columnSpan (G : Fin n → Fin n → ℝ) (S : Set (Fin n)) : Submodule ℝ (Fin n → ℝ) :=
  Submodule.span ℝ ((fun s l => G l s) '' S)

/-- `A` is the Nyström approximation of `G` from the points `S`: symmetric, exact on the rows of `S`, and made of the columns
of `S` only. -/
structure IsNystrom (G : Fin n → Fin n → ℝ) (S : Set (Fin n)) (A : Fin n → Fin n → ℝ) : Prop where
  symm : ∀ i j, A i j = A j i
  exact : ∀ s ∈ S, ∀ j, A s j = G s j
  span : ∀ j, (fun l => A l j) ∈ columnSpan G S

end Coreax.Spec
