import Mathlib.Algebra.Order.Field.Basic
import Mathlib.Algebra.BigOperators.Fin

/-!
# Specifications shared by several properties

Nothing here mentions the model.
-/

namespace Coreax.Spec

variable {K : Type*} [Field K]

/-- The weighted average of `f` (as `jnp.average` defines it), for weights with a non-zero sum. -/
def avg {n : ℕ} (w f : Fin n → K) : K := (∑ i, w i * f i) / ∑ i, w i

/-- Weights append `p` zero entries. -/
def padWeights {n : ℕ} (w : Fin n → K) (p : ℕ) : Fin (n + p) → K := Fin.append w (fun _ => 0)

/-- The squared maximum mean discrepancy between two weighted samples. -/
def mmdSq {X : Type*} (k : X → X → K) {n m : ℕ} (x : Fin n → X) (wx : Fin n → K) (y : Fin m → X) (wy : Fin m → K) : K :=
  avg wx (fun i => avg wx fun j => k (x i) (x j)) - 2 * avg wx (fun i => avg wy fun j => k (x i) (y j)) +
    avg wy (fun i => avg wy fun j => k (y i) (y j))

end Coreax.Spec
