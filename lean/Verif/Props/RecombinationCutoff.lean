import Verif.Props.Recombination
import Mathlib.Tactic.FinCases
import Mathlib.Algebra.BigOperators.Fin

/-!
# C25: the relative cut-off for singular values (`_resolve_rcond`)
-/

set_option linter.unusedSectionVars false

namespace Coreax

open Spec

variable {K : Type*} [Field K] [LinearOrder K] [IsStrictOrderedRing K] {n m : ℕ} [NeZero n]

/-- C25: the dimension taken for the null space is the number of rows less the number of singular values above `tol` times the largest one, where `tol` is
the machine epsilon times the longer side by default, the machine epsilon for a negative `rcond`, and `rcond` itself otherwise, zero included. -/
theorem C25_cutoff (svd : ∀ n m, (Fin n → Fin m → K) → SvdOut n m K) (eps : K) (nodes : Fin n → Fin (m + 1) → K) (largest : K)
    (hl : ∀ h, largest = (svd n (m + 1) nodes).s ⟨0, h⟩) :
    ∀ (rcond : Option K) (tol : K), (rcond = none → tol = eps * max (n : K) ((m : K) + 1)) → (∀ r, rcond = some r → r < 0 → tol = eps) →
      (∀ r, rcond = some r → 0 ≤ r → tol = r) →
      (resolveNullBasis svd eps rcond n (m + 1) nodes).2
        = n - (Finset.univ.filter (fun i => tol * largest < (svd n (m + 1) nodes).s i)).card := by
  intro rcond tol h1 h2 h3
  have hpos : 0 < min n (m + 1) := lt_min (Nat.pos_of_ne_zero (NeZero.ne n)) (Nat.succ_pos m)
  have ht : nodesRcond eps n (m + 1) rcond = tol := by
    rcases rcond with _ | r
    · rw [h1 rfl]; simp [nodesRcond]
    · rcases lt_or_ge r 0 with h | h
      · rw [h2 r rfl h]; simp [nodesRcond, h]
      · rw [h3 r rfl h]; simp [nodesRcond, not_lt.2 h]
  simp only [resolveNullBasis, svdCutoff, dif_pos hpos, ht, hl hpos]

/-- C25: with `rcond=0` and exact arithmetic the cut-off is never wrong: every singular value decomposition gives a basis of the left null space. -/
theorem C25_zero_rcond (svd : ∀ n m, (Fin n → Fin m → K) → SvdOut n m K) (eps : K) (nodes : Fin n → Fin m → K) (h : IsSvd nodes (svd n m nodes)) :
    NullBasis nodes (resolveNullBasis svd eps (some 0) n m nodes).1 (resolveNullBasis svd eps (some 0) n m nodes).2 := by
  refine C25_null_basis svd eps (some 0) nodes h fun i => ?_
  have : svdCutoff eps (some 0) (svd n m nodes).s = 0 := by
    unfold svdCutoff nodesRcond
    split <;> simp
  rw [this]
  exact ⟨fun h => h.ne', fun hne => lt_of_le_of_ne (h.nonneg i) (Ne.symm hne)⟩

/-- C25: any other cut-off is exact if no non-zero singular value is at or below it. -/
theorem C25_relative_rcond (svd : ∀ n m, (Fin n → Fin m → K) → SvdOut n m K) (eps r : K) (hr : 0 ≤ r) (nodes : Fin n → Fin m → K) (h : IsSvd nodes (svd n m nodes))
    (hgap : ∀ i j, (svd n m nodes).s i ≠ 0 → r * (svd n m nodes).s j < (svd n m nodes).s i) :
    NullBasis nodes (resolveNullBasis svd eps (some r) n m nodes).1 (resolveNullBasis svd eps (some r) n m nodes).2 := by
  refine C25_null_basis svd eps (some r) nodes h fun i => ?_
  have hpos : 0 < min n m := i.pos
  have : svdCutoff eps (some r) (svd n m nodes).s = r * (svd n m nodes).s ⟨0, hpos⟩ := by
    simp [svdCutoff, nodesRcond, not_lt.2 hr, dif_pos hpos]
  rw [this]
  refine ⟨fun hlt hz => ?_, fun hne => hgap i _ hne⟩
  rw [hz] at hlt
  exact absurd (mul_nonneg hr (h.nonneg _)) (not_le.2 hlt)

/-- A decomposition of a node matrix of two rows and one column, `(3, 0)`, by the identity. -/
def cutoffSvd : ∀ n m, (Fin n → Fin m → ℚ) → SvdOut n m ℚ := fun n m nodes =>
  { q := fun i j => if i = j then 1 else 0, vt := fun i j => if i = j then 1 else 0,
    s := fun i => nodes (Fin.castLE (Nat.min_le_left n m) i) (Fin.castLE (Nat.min_le_right n m) i) }

/-- The hypotheses of the three theorems hold for it. -/
theorem cutoffSvd_isSvd : IsSvd (fun i : Fin 2 => ![![3], ![0]] i) (cutoffSvd 2 1 fun i : Fin 2 => ![![3], ![0]] i) := by
  refine ⟨?_, ?_, ?_, ?_, ?_⟩
  · decide +kernel
  · decide +kernel
  · decide +kernel
  · decide +kernel
  · decide +kernel

/-- With `rcond=0` one null vector is found, with `rcond=1` the largest singular value itself is not above the cut-off and two are claimed. -/
example : (resolveNullBasis cutoffSvd (1 / 100) (some 0) 2 1 (fun i : Fin 2 => ![![3], ![0]] i)).2 = 1 ∧
    (resolveNullBasis cutoffSvd (1 / 100) (some 1) 2 1 (fun i : Fin 2 => ![![3], ![0]] i)).2 = 2 ∧
    (resolveNullBasis cutoffSvd (1 / 100) (some (-5)) 2 1 (fun i : Fin 2 => ![![3], ![0]] i)).2 = 1 := by decide +kernel

example : NullBasis (fun i : Fin 2 => ![![3], ![0]] i) (resolveNullBasis cutoffSvd (1 / 100) (some 0) 2 1 (fun i : Fin 2 => ![![3], ![0]] i)).1
    (resolveNullBasis cutoffSvd (1 / 100) (some 0) 2 1 (fun i : Fin 2 => ![![3], ![0]] i)).2 :=
  C25_zero_rcond cutoffSvd (1 / 100) _ cutoffSvd_isSvd

example := C25_null_basis cutoffSvd (1 / 100) (some (1 / 2)) (fun i : Fin 2 => ![![3], ![0]] i) cutoffSvd_isSvd (by decide +kernel)

example := C25_cutoff cutoffSvd (1 / 100) (fun i : Fin 2 => ![![3], ![0]] i) 3 (by decide +kernel) (some (1 / 2)) (1 / 2) (by decide) (by decide +kernel) (by decide +kernel)

example := C25_relative_rcond cutoffSvd (1 / 100) (1 / 2) (by norm_num) (fun i : Fin 2 => ![![3], ![0]] i) cutoffSvd_isSvd (by decide +kernel)

end Coreax
