import Verif.Spec.Calculus

/-!
# Specification: the Langevin-Stein operator

Nothing here mentions the model.
-/

namespace Coreax.Spec

open Filter Topology

/-- `v` is the value at `x` of the Langevin-Stein operator with score `s` applied to the vector field `F`:
`div F (x) + ⟨F x, s x⟩`. -/
def IsLangevin {d : ℕ} (s : (Fin d → ℝ) → Fin d → ℝ) (F : (Fin d → ℝ) → Fin d → ℝ) (v : ℝ) (x : Fin d → ℝ) : Prop :=
  ∃ dv, IsDiv F dv x ∧ v = dv + ∑ i, F x i * s x i

/-- `v` is the value at `(x, y)` of the operator applied to both arguments of `k`: first
`∇_y k (x', y) + k (x', y) s y` as a field in `x'`, then the operator in `x'` at `x`. -/
def IsSteinOfKernel {d : ℕ} (k : (Fin d → ℝ) → (Fin d → ℝ) → ℝ) (s : (Fin d → ℝ) → Fin d → ℝ) (v : ℝ) (x y : Fin d → ℝ) : Prop :=
  ∃ g : (Fin d → ℝ) → Fin d → ℝ, (∀ᶠ x' in 𝓝 x, IsGrad (fun y' => k x' y') (g x') y) ∧
    IsLangevin s (fun x' i => g x' i + k x' y * s y i) v x

end Coreax.Spec
