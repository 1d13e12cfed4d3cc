import Verif.Props.Approximation
import Verif.Props.LeastSquares

/-!
# Cases for the approximate kernels (C32)

The contracts can be met, and what the code does not deliver.
-/

set_option linter.unusedSectionVars false

namespace Coreax

open Spec

/-- The contract of least squares can be met. -/
theorem exists_rectLstsq : ∃ lstsq : RectLstsq ℝ, RectLstsqContract lstsq := by
  obtain ⟨ls, h⟩ := exists_lstsq
  refine ⟨fun {t f} A b l => ls (n := t + f) (q := 1)
    (Matrix.of fun i j => Fin.addCases (fun i => Fin.addCases (fun _ => (0 : ℝ)) (fun j => A i j) j) (fun _ => 0) i)
    (Matrix.of fun i _ => Fin.addCases (fun i => b i) (fun _ => 0) i) (Fin.natAdd t l) 0, ?_⟩
  intro t f A b l
  have := congrFun (congrFun (h (n := t + f) (q := 1)
    (Matrix.of fun i j => Fin.addCases (fun i => Fin.addCases (fun _ => (0 : ℝ)) (fun j => A i j) j) (fun _ => 0) i)
    (Matrix.of fun i _ => Fin.addCases (fun i => b i) (fun _ => 0) i)).normal (Fin.natAdd t l)) 0
  simp only [Matrix.mul_apply, Matrix.transpose_apply, Matrix.of_apply, Fin.sum_univ_add, Fin.addCases_left, Fin.addCases_right,
    zero_mul, Finset.sum_const_zero, add_zero, zero_add] at this
  simp only [mul_sub, Finset.sum_sub_distrib]
  exact sub_eq_zero.2 this

/-- A draw meeting its contract: the first indices. -/
theorem firstIndices_contract : IndexDrawContract (fun _ _ s => ((s : ℕ) : ℤ)) :=
  fun _ _ h => ⟨fun s => ⟨s, by have := s.2; omega⟩, fun a b h => Fin.ext (by simpa using congrArg Fin.val h), fun _ => rfl⟩

/-- The kernel on two points that is one on equal points and zero elsewhere. -/
noncomputable def deltaKernel (a b : Fin 2) : ℝ := if a = b then 1 else 0

theorem deltaKernel_symm (a b : Fin 2) : deltaKernel a b = deltaKernel b a := by unfold deltaKernel; simp [eq_comm]

theorem deltaKernel_gram : IndepColumns (fun i j : Fin 2 => deltaKernel (id i) (id j)) := by
  intro z hz j
  have := hz j
  simpa [deltaKernel] using this

theorem deltaKernel_rowMeans : rowMeans deltaKernel (id : Fin 2 → Fin 2) = fun _ => 1 / 2 := by
  funext i
  simp [rowMeans, deltaKernel]

/-- Both full-size theorems apply to two points and the kernel above. -/
example : ∃ lstsq : RectLstsq ℝ,
    monteCarloRowMean (fun _ _ s => ((s : ℕ) : ℤ)) lstsq 1000 deltaKernel 3 2 (id : Fin 2 → Fin 2) = .ok (fun _ => 1 / 2) ∧
    nystromRowMean (fun _ _ s => ((s : ℕ) : ℤ)) lstsq 1000 deltaKernel 2 2 (id : Fin 2 → Fin 2) = .ok (fun _ => 1 / 2) := by
  obtain ⟨lstsq, h⟩ := exists_rectLstsq
  refine ⟨lstsq, ?_, ?_⟩
  · rw [C32_monte_carlo_full firstIndices_contract h 1000 deltaKernel deltaKernel_symm _ deltaKernel_gram, deltaKernel_rowMeans]
  · rw [C32_nystrom_full firstIndices_contract h 1000 deltaKernel deltaKernel_symm _ deltaKernel_gram, deltaKernel_rowMeans]

/-- C32, as named the parameter is not honoured: with `num_kernel_points` and `num_train_points` both equal to the number of points and an invertible Gram
matrix the Monte Carlo row mean is nevertheless not exact, because only `num_kernel_points - 1` features are drawn. -/
theorem C32_monte_carlo_all_points_inexact {draw : IndexDraw} (hdraw : IndexDrawContract draw) (lstsq : RectLstsq ℝ) :
    ∃ r, monteCarloRowMean draw lstsq 1000 deltaKernel 2 2 (id : Fin 2 → Fin 2) = .ok r ∧ r ≠ rowMeans deltaKernel id := by
  obtain ⟨F, -, hF⟩ := hdraw 2 1 (by norm_num)
  unfold monteCarloRowMean randomLeastSquares randomIndices
  simp only [Nat.add_one_sub_one, gt_iff_lt, Nat.not_ofNat_lt_one, if_false, lt_irrefl, hF, gatherIdx_coe]
  rw [target_mean 1000 deltaKernel deltaKernel_symm (by norm_num) (by norm_num)]
  refine ⟨_, rfl, fun hcon => ?_⟩
  have h0 := congrFun hcon (1 - F 0)
  rw [deltaKernel_rowMeans, Fin.sum_univ_one] at h0
  have hne : ¬ (id (1 - F 0) : Fin 2) = id (F 0) := by
    generalize F 0 = p
    fin_cases p <;> decide
  rw [deltaKernel, if_neg hne, zero_mul] at h0
  norm_num at h0

example := fun lstsq => C32_monte_carlo_all_points_inexact firstIndices_contract lstsq

/-- C32: the Nyström row mean is not the Nyström estimator of the row mean.  Here one point spans the feature space of the kernel, so that the
estimator `K_nm K_mm⁻¹ K_mn 1/n` is exact for whichever point is drawn, but the value returned is not. -/
theorem C32_nystrom_not_estimator {draw : IndexDraw} (hdraw : IndexDrawContract draw) {lstsq : RectLstsq ℝ} (hl : RectLstsqContract lstsq) :
    let x : Fin 2 → ℝ := ![1, 2]
    let k : ℝ → ℝ → ℝ := fun a b => a * b
    (∀ s i : Fin 2, k (x i) (x s) * (k (x s) (x s))⁻¹ * rowMeans k x s = rowMeans k x i) ∧
    ∃ r, nystromRowMean draw lstsq 1000 k 1 1 x = .ok r ∧ ∀ i, r i ≠ rowMeans k x i := by
  intro x k
  constructor
  · intro s i
    fin_cases s <;> fin_cases i <;> simp [x, k, rowMeans, Fin.sum_univ_two] <;> norm_num
  · obtain ⟨S, -, -, h⟩ := C32_nystrom_subset_mean hdraw hl 1000 k (fun a b => mul_comm a b) (m := 1) (by norm_num) (by norm_num) x (fun S _ => by
      intro z hz j
      have := hz 0
      rw [Fin.sum_univ_one] at this
      have hp : k (x (S 0)) (x (S 0)) ≠ 0 := by
        generalize S 0 = p
        fin_cases p <;> simp [x, k]
      rcases mul_eq_zero.1 this with h | h
      · exact absurd h hp
      · rw [Subsingleton.elim j 0]; exact h)
    refine ⟨_, h, fun i => ?_⟩
    rw [Fin.sum_univ_one]
    generalize S 0 = p
    fin_cases p <;> fin_cases i <;> simp [x, k, rowMeans, Fin.sum_univ_two] <;> norm_num

example : ∃ lstsq : RectLstsq ℝ, ∃ r, nystromRowMean (fun _ _ s => ((s : ℕ) : ℤ)) lstsq 1000 (fun a b : ℝ => a * b) 1 1 ![1, 2] = .ok r ∧ ∀ i, r i ≠ rowMeans (fun a b : ℝ => a * b) ![1, 2] i := by
  obtain ⟨lstsq, h⟩ := exists_rectLstsq
  exact ⟨lstsq, (C32_nystrom_not_estimator firstIndices_contract h).2⟩

/-- C32: with a kernel that takes negative values the anchors are not the points least similar to the previous anchors: here the third point is the
least similar to the first, but the second is chosen. -/
theorem C32_annchor_negative_kernel :
    let x : Fin 3 → ℚ := ![1, -1, -2]
    annchorFeatures (fun a b => a * b) 2 x = (fun i j => x i * x (![0, 1] j)) ∧ (∀ i, x 2 * x 0 ≤ x i * x 0) ∧ x 2 * x 0 < x 1 * x 0 := by
  decide +kernel

/-- With a non-negative kernel (here `(a b)²`) the clipping has no effect and the least similar point is the second anchor. -/
example : annchorFeatures (fun a b : ℚ => (a * b) ^ 2) 2 (![1, -1, 1 / 2] : Fin 3 → ℚ)
    = fun i j => ((![1, -1, 1 / 2] : Fin 3 → ℚ) i * (![1, -1, 1 / 2] : Fin 3 → ℚ) (![0, 2] j)) ^ 2 := by
  decide +kernel

/-- ANNchor with a single anchor is exact for a one-dimensional feature space. -/
example : ∃ lstsq : RectLstsq ℝ, annchorRowMean (fun _ _ s => ((s : ℕ) : ℤ)) lstsq 1000 (fun a b => a * b) 1 1 ![1, 2] = .ok ![3 / 2, 3] := by
  obtain ⟨lstsq, h⟩ := exists_rectLstsq
  have e : rowMeans (fun a b : ℝ => a * b) (![1, 2] : Fin 2 → ℝ) = ![3 / 2, 3] := by
    funext i
    fin_cases i <;> simp [rowMeans, Fin.sum_univ_two] <;> norm_num
  refine ⟨lstsq, ?_⟩
  rw [C32_annchor_exact firstIndices_contract h 1000 (fun a b : ℝ => a * b) (fun a b => mul_comm a b) (f := 1) (by norm_num) (by norm_num) ![1, 2]
    (fun _ => 3 / 2) ?_ ?_, e]
  · intro i
    rw [e]
    fin_cases i <;> simp [annchorFeatures, forLoop] <;> norm_num
  · intro S hS z hz j
    have := hz 0
    rw [Fin.sum_univ_one] at this
    have hp : annchorFeatures (fun a b : ℝ => a * b) 1 ![1, 2] (S 0) 0 ≠ 0 := by
      generalize S 0 = p
      fin_cases p <;> simp [annchorFeatures, forLoop]
    rcases mul_eq_zero.1 this with h | h
    · exact absurd h hp
    · rw [Subsingleton.elim j 0]; exact h

/-- The hypotheses of `C32_monte_carlo_exact`: one feature, the kernel `a b`, whose row means are multiples of each column. -/
example : ∃ lstsq : RectLstsq ℝ, monteCarloRowMean (fun _ _ s => ((s : ℕ) : ℤ)) lstsq 1000 (fun a b : ℝ => a * b) 2 1 ![1, 2] = .ok (rowMeans (fun a b : ℝ => a * b) ![1, 2]) := by
  obtain ⟨lstsq, h⟩ := exists_rectLstsq
  refine ⟨lstsq, C32_monte_carlo_exact firstIndices_contract h 1000 _ (fun a b => mul_comm a b) (by norm_num) (by norm_num) (by norm_num) ![1, 2] fun F _ hF => ⟨⟨fun _ => 3 / 2, fun i => ?_⟩, fun S hS z hz j => ?_⟩⟩
  · have h0 : F 0 = 0 := Fin.ext (by have := hF 0; simpa using this.symm)
    change ∑ j : Fin 1, _ = _
    rw [Fin.sum_univ_one]
    change (![1, 2] : Fin 2 → ℝ) i * (![1, 2] : Fin 2 → ℝ) (F 0) * _ = _
    rw [h0]
    fin_cases i <;> simp [rowMeans, Fin.sum_univ_two] <;> norm_num
  · have h1 : ∑ j : Fin 1, z j * ((![1, 2] : Fin 2 → ℝ) (S 0) * (![1, 2] : Fin 2 → ℝ) (F j)) = 0 := by
      have := hz 0
      simpa [mul_comm] using this
    rw [Fin.sum_univ_one] at h1
    have hp : (![1, 2] : Fin 2 → ℝ) (S 0) * (![1, 2] : Fin 2 → ℝ) (F 0) ≠ 0 := by
      generalize S 0 = p
      generalize F 0 = q
      fin_cases p <;> fin_cases q <;> simp
    rw [show j = (0 : Fin 1) from Subsingleton.elim (α := Fin 1) j 0]
    rcases mul_eq_zero.1 h1 with h | h
    · exact h
    · exact absurd h hp

/-- The kernel that is 1 on equal points, three different rows, the first two as landmarks and as training points. -/
example (lstsq : RectLstsq ℝ) (hl : RectLstsqContract lstsq) :=
  C32_nystrom_subset_mean firstIndices_contract hl 1000 (fun a b : ℝ => if a = b then (1 : ℝ) else 0) (fun a b => by simp only [eq_comm]) (m := 2) (by norm_num) (by norm_num)
    (![1, 2, 4] : Fin 3 → ℝ) (fun S hS c hc => by
      have h0 : S 0 = 0 := Fin.ext (by exact_mod_cast (hS 0).symm)
      have h1 : S 1 = 1 := Fin.ext (by exact_mod_cast (hS 1).symm)
      intro j
      have e0 := hc 0
      have e1 := hc 1
      simp [Fin.sum_univ_two, h0, h1] at e0 e1
      fin_cases j
      exacts [e0, e1])

end Coreax
