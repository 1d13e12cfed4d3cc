import Verif.Spec.Basic
import Mathlib.Data.Fintype.Card
import Mathlib.Order.Defs.LinearOrder

/-!
# Specification of greedy coreset selection

Nothing here mentions the model.  `x` are the data points, `w` their weights, `c` (weights `cw`) the coreset that is
being refined, `f` the resulting coreset.
-/

namespace Coreax.Spec

variable {X K : Type*} [Field K] [LinearOrder K] {n m out : ℕ}

/-- `j` is the first of the allowed indices at which `score` is greatest. -/
def IsFirstMax (allowed : Fin n → Prop) (score : Fin n → K) (j : Fin n) : Prop :=
  allowed j ∧ (∀ l, allowed l → score l ≤ score j) ∧ ∀ l, l < j → allowed l → score l < score j

/-- When position `i` is (re)chosen the coreset consists of the new points at earlier positions and of the old points
(of positive weight) at later positions.  This is the sum of `k(x_j, ·)` over these points. -/
def otherSum (k : X → X → K) (x : Fin n → X) (c : Fin m → Fin n) (cw : Fin m → K) (f : Fin out → Fin n)
    (i : Fin out) (j : Fin n) : K :=
  (∑ t, if t < i then k (x j) (x (f t)) else 0) +
    ∑ t : Fin m, if (i : ℕ) < t ∧ 0 < cw t then k (x j) (x (c t)) else 0

/-- The number of these points. -/
def otherCount (cw : Fin m → K) (i : ℕ) : ℕ :=
  i + (Finset.univ.filter (fun t : Fin m => i < t ∧ 0 < cw t)).card

/-- The points among which position `i` is chosen: those of positive weight, and if `unique` only those that are not
already in the coreset at another position. -/
def Allowed (w : Fin n → K) (unique : Bool) (c : Fin m → Fin n) (cw : Fin m → K) (f : Fin out → Fin n)
    (i : Fin out) (j : Fin n) : Prop :=
  0 < w j ∧ (unique = true → (∀ t, t < i → f t ≠ j) ∧
    ∀ t : Fin m, (i : ℕ) < t → 0 < cw t → c t = j → ∃ h : (i : ℕ) < m, c ⟨i, h⟩ = j)

/-- Equation 8 of Chen et al. (2012): `f` results from the kernel herding recursion (with the lowest index winning
ties), started from the coreset `c`. -/
def HerdingRun (k : X → X → K) (x : Fin n → X) (w : Fin n → K) (unique : Bool) (c : Fin m → Fin n)
    (cw : Fin m → K) (f : Fin out → Fin n) : Prop :=
  ∀ i, IsFirstMax (Allowed w unique c cw f i)
    (fun j => avg w (fun l => k (x l) (x j)) - otherSum k x c cw f i j / ((otherCount cw i + 1 : ℕ) : K)) (f i)

/-- Section 3.1 of Benard et al. (2023): `f` minimises `k(x,x) + Δ⁺ log p - λ t log p + 2 Σ k(x, x_j)` greedily. -/
def SteinRun (k : X → X → K) (x : Fin n → X) (w : Fin n → K) (lap logp : Fin n → K) (unique : Bool)
    (c : Fin m → Fin n) (cw : Fin m → K) (f : Fin out → Fin n) : Prop :=
  ∀ i : Fin out, IsFirstMax (Allowed w unique c cw f i)
    (fun j => -(k (x j) (x j) + lap j - (i + 1 : K) * logp j + 2 * otherSum k x c cw f i j)) (f i)

/-- The positive weights of a coreset are all equal. -/
def UniformWeights (cw : Fin m → K) : Prop := ∃ u, 0 < u ∧ ∀ t, cw t = 0 ∨ cw t = u

end Coreax.Spec
