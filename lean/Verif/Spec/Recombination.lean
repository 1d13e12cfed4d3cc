import Verif.Model.Recombination
import Mathlib.Algebra.BigOperators.Group.Finset.Basic

/-!
# Specification of recombination

What a correct null-space basis and a correct singular value decomposition are, and the integral of a function against
a weighted set of indices.
-/

namespace Coreax.Spec

variable {K : Type*} [Field K] [LinearOrder K]

/-- `z` is a left null vector of the node matrix: an affine dependence among the nodes. -/
def LeftNull {n m : ℕ} (nodes : Fin n → Fin m → K) (z : Fin n → K) : Prop := ∀ l, ∑ j, z j * nodes j l = 0

/-- The first `r` rows of `basis` are a basis of the left null space of `nodes`. -/
structure NullBasis {n m : ℕ} (nodes : Fin n → Fin m → K) (basis : Fin n → Fin n → K) (r : ℕ) : Prop where
  le : r ≤ n
  null : ∀ i : Fin n, (i : ℕ) < r → LeftNull nodes (basis i)
  indep : ∀ c : Fin n → K, (∀ k : Fin n, r ≤ (k : ℕ) → c k = 0) → (∀ j, ∑ k, c k * basis k j = 0) → ∀ k, c k = 0
  span : ∀ z : Fin n → K, LeftNull nodes z →
    ∃ c : Fin n → K, (∀ k : Fin n, r ≤ (k : ℕ) → c k = 0) ∧ ∀ j, z j = ∑ k, c k * basis k j

/-- The nodes at which `keep` holds are linearly independent. -/
def IndepOn {n m : ℕ} (nodes : Fin n → Fin m → K) (keep : Fin n → Prop) : Prop :=
  ∀ z : Fin n → K, (∀ j, ¬ keep j → z j = 0) → LeftNull nodes z → ∀ j, z j = 0

/-- A full singular value decomposition of `nodes`: orthonormal columns of `q`, orthonormal rows of `vt`, non-negative
descending singular values. -/
structure IsSvd {n m : ℕ} (nodes : Fin n → Fin m → K) (o : SvdOut n m K) : Prop where
  orthoQ : ∀ a b, ∑ j, o.q j a * o.q j b = if a = b then 1 else 0
  orthoV : ∀ a b, ∑ l, o.vt a l * o.vt b l = if a = b then 1 else 0
  nonneg : ∀ i, 0 ≤ o.s i
  anti : ∀ i j, i ≤ j → o.s j ≤ o.s i
  eq : ∀ j l, nodes j l =
    ∑ i : Fin (min n m), o.q j (Fin.castLE (Nat.min_le_left n m) i) * o.s i * o.vt (Fin.castLE (Nat.min_le_right n m) i) l

/-- The integral of `g` against weighted indices. -/
def integral {k : ℕ} (c : Data k ℤ K) (g : ℤ → K) : K := ∑ t, c.weights t * g (c.data t)

/-- The pairs of index and weight with non-zero weight, in order. -/
def support {k : ℕ} (c : Data k ℤ K) : List (ℤ × K) :=
  (List.ofFn (fun t => (c.data t, c.weights t))).filter (fun p => p.2 ≠ 0)

end Coreax.Spec
