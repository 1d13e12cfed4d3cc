import Verif.Spec.Kernel
import Verif.Spec.Basic
import Mathlib.MeasureTheory.Integral.Bochner.Basic

/-!
# Specification: the maximum mean discrepancy between distributions

Nothing here mentions the model.
-/

namespace Coreax.Spec

open MeasureTheory

variable {X : Type*} [MeasurableSpace X]

/-- The mean of the kernel over independent draws from two distributions. -/
noncomputable def meanOver (k : X → X → ℝ) (P Q : Measure X) : ℝ := ∫ x, ∫ y, k x y ∂Q ∂P

/-- The squared maximum mean discrepancy between two distributions. -/
noncomputable def popMmdSq (k : X → X → ℝ) (P Q : Measure X) : ℝ := meanOver k P P - 2 * meanOver k P Q + meanOver k Q Q

/-- The spread of a distribution as seen by a kernel: the mean of the kernel on the diagonal less the mean over two independent draws. -/
noncomputable def popSpread (k : X → X → ℝ) (P : Measure X) : ℝ := ∫ x, k x x ∂P - meanOver k P P

/-- The squared maximum mean discrepancy between a weighted set of points and a distribution. -/
noncomputable def mmdSqTo (k : X → X → ℝ) {m : ℕ} (y : Fin m → X) (w : Fin m → ℝ) (P : Measure X) : ℝ :=
  avg w (fun i => avg w fun j => k (y i) (y j)) - 2 * avg w (fun i => ∫ z, k (y i) z ∂P) + meanOver k P P

end Coreax.Spec
