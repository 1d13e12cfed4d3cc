import Verif.Props.Stability
import Verif.Props.Stein
import Verif.Props.Random
import Verif.Props.Median
import Verif.Props.ThinningRate
import Verif.Props.Supervised
import Verif.Props.MapReduceRate
import Verif.Props.KernelSums
import Verif.Props.WeightsCases
import Verif.Props.PivotQuadrature

/-!
# Further cases that meet the hypotheses of theorems
-/

namespace Coreax

open Spec Greedy
open scoped RealInnerProductSpace

/-- C02: weights with a zero. -/
example := C02_normalize_nonneg (1000 : ℚ) ⟨![10, 20, 30], ![1, 0, 3]⟩ (by decide +kernel) 2

/-- C15: other positive weights at the same rows. -/
example := C15_weights_only_mask (n := 4) 1000 (fun a b : ℚ => a * b + 1) true (.leaf none) (.inl rfl) 2 (by norm_num) ⟨![-2, 1, 3, 0], ![1, 2, 1, 0]⟩
  ![5, 1, 7, -1] (by decide +kernel) none [0, 1] (by decide) (by unfold PosCount; decide +kernel)

/-- C43: two distinct points. -/
example := C43_kernel_construction (![![0], ![2]] : Fin 2 → Vec 1) (Real.sqrt 2) (by
  have hl : pairDistances (![![0], ![2]] : Fin 2 → Vec 1) = [4] := by
    simp [pairDistances, List.finRange_succ, sqDist]; norm_num
  have : (4 : ℝ) / 2 = 2 := by norm_num
  simp [medianHeuristic, medianOf, hl, -Real.sqrt_div', this])

/-- C50: two pairs on the line, the deviation of the mean of `g x = x`. -/
example := C50_tail (h := 2) (fun x : ℝ => x) (fun a b : ℝ => b * a) (fun a b => by simp [inner]) 1 one_pos (by norm_num) ![0, 1, 2, 4]
  (fun i => by fin_cases i <;> norm_num [pairAt]) 2 (fun i => by fin_cases i <;> norm_num [pairAt]) (1 : ℝ) 1 one_pos (by norm_num) (1 / 2) (by norm_num)

/-- C55: a supervised data set of three rows against one of two. -/
example := C55_accepted (n := 3) (X := ℝ) (Y := ℝ) (size := 2) (q := 2) (by norm_num) 1000 (fun a b : ℝ => a * b) true true
  ⟨⟨![1, 2, 3], ![1, 0, 2]⟩, some ![4, 5, 6]⟩ ⟨⟨![1, 2], ![1, 1]⟩, none⟩ firstChoice firstChoice_contract (by norm_num)

/-- C58: seventeen rows in four leaves of five. -/
example := C58_herding (size := 2) 1000 (fun a b : ℝ => a * b) (isPSD_rankOne fun x => x) true (.leaf none) (.inl rfl) 6 (by norm_num) (by norm_num)
  (rowTree ℝ ℝ) rowTree_contract (N := 17) (by norm_num) ⟨fun i => (i : ℝ), fun _ => 1⟩ (fun _ => rfl) (by decide +kernel) (R := 256)
  (fun t => by
    have h : ((t : ℕ) : ℝ) ≤ 16 := by exact_mod_cast Nat.le_of_lt_succ t.2
    have h0 : (0 : ℝ) ≤ (t : ℕ) := Nat.cast_nonneg _
    nlinarith)

/-- C83: all mass of two rows moved to one. -/
example := C83_transport 1000 (fun a b : ℝ => a * b) (isPSD_rankOne fun x => x) (n := 2) (m := 1) (by norm_num) (by norm_num) ⟨![0, 1], ![1, 3]⟩ ⟨![2], ![5]⟩
  (by norm_num [Fin.sum_univ_two]) (by norm_num) (.leaf none) (.inl rfl) (fun i _ => ![1 / 4, 3 / 4] i)
  (by refine ⟨fun i j => ?_, fun i => ?_, fun j => ?_⟩ <;> (try fin_cases i) <;> (try fin_cases j) <;> norm_num [Fin.sum_univ_two])

example := C83_move 1000 (fun a b : ℝ => a * b) (isPSD_rankOne fun x => x) (n := 2) (m := 1) (by norm_num) (by norm_num) ![0, 1] ![1 / 2, 1] ![1, 3]
  ![2] ![3] ![5] (fun i => by fin_cases i <;> norm_num) (fun i => by fin_cases i; norm_num) (by norm_num [Fin.sum_univ_two]) (by norm_num) (.leaf none) (.inl rfl)

/-- C97: exact solvers exist. -/
example : ∃ solve : LinSolve ℝ, SolveContract solve ∧ ∃ (dataset : DSet 2 ℝ Unit ℝ) (coreset : DSet 1 ℝ Unit ℝ),
    sbqSolve solve 1000 (fun a b => a * b) dataset coreset 0 (.leaf none) = .ok (fun _ => 2) := by
  obtain ⟨solve, hs⟩ := exists_solve (K := ℝ)
  obtain ⟨a, b, -, -, h, -⟩ := C97_not_sbq solve hs 1000
  exact ⟨solve, hs, a, b, h⟩

end Coreax
