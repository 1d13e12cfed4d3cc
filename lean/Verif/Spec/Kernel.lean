import Mathlib.Analysis.InnerProductSpace.Basic
import Verif.Spec.Basic

/-!
# Specification: positive semi-definite kernels and mean embeddings

Nothing here mentions the model.
-/

namespace Coreax.Spec

variable {X : Type*}

/-- A symmetric positive semi-definite kernel. -/
def IsPSD (k : X → X → ℝ) : Prop :=
  (∀ a b, k a b = k b a) ∧
    ∀ (n : ℕ) (x : Fin n → X) (c : Fin n → ℝ), 0 ≤ ∑ i, ∑ j, c i * c j * k (x i) (x j)

/-- The weighted mean of the features of a sample. -/
noncomputable def meanEmbedding {H : Type*} [NormedAddCommGroup H] [InnerProductSpace ℝ H] (φ : X → H) {n : ℕ}
    (x : Fin n → X) (w : Fin n → ℝ) : H :=
  (∑ i, w i)⁻¹ • ∑ i, w i • φ (x i)

open Classical in
/-- The total weight that a weighted sample puts on the point `a`. -/
noncomputable def massAt {n : ℕ} (x : Fin n → X) (w : Fin n → ℝ) (a : X) : ℝ := ∑ i, if x i = a then w i else 0

end Coreax.Spec
