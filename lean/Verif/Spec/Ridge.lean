import Mathlib.Algebra.Order.Field.Basic
import Mathlib.Algebra.BigOperators.Fin

/-!
# Specification: kernel ridge regression on selected points

Nothing here mentions the model.
-/

namespace Coreax.Spec

variable {K : Type*} [Field K] {n m l : ℕ}

/-- `a` are coefficients of the kernel ridge regression of the responses `y` on the points selected by `S` (positions where `S`
is `none` take no part): `(G_SS + lam I) a = y_S`. -/
def IsRidgeFit (G : Fin n → Fin n → K) (y : Fin n → K) (lam : K) (S : Fin m → Option (Fin n)) (a : Fin m → K) : Prop :=
  ∀ t s, S t = some s → ∑ u, (S u).elim 0 (fun s' => G s s' * a u) + lam * a t = y s

/-- The squared error of the fitted model on the points `batch`. -/
def ridgeError (G : Fin n → Fin n → K) (y : Fin n → K) (S : Fin m → Option (Fin n)) (a : Fin m → K)
    (batch : Fin l → Fin n) : K :=
  ∑ j, (∑ u, (S u).elim 0 (fun s => G s (batch j) * a u) - y (batch j)) ^ 2

/-- The points after `i` steps with `c` at position `i`: `f` before, `init` after. -/
def replaceAt (f : Fin m → Fin n) (init : Fin m → Option (Fin n)) (i : Fin m) (c : Fin n) : Fin m → Option (Fin n) :=
  fun t => if t < i then some (f t) else if t = i then some c else init t

end Coreax.Spec
