import Verif.Spec.Score
import Verif.Model.SlicedScore
import Mathlib.Analysis.Calculus.LineDeriv.IntegrationByParts
import Mathlib.Analysis.Calculus.FDeriv.Measurable
import Mathlib.Analysis.Calculus.FDeriv.Pi
import Mathlib.MeasureTheory.Measure.Haar.OfBasis
import Mathlib.MeasureTheory.Constructions.BorelSpace.ContinuousLinearMap

/-!
# Integration by parts for score matching
-/

namespace Coreax

open MeasureTheory

variable {d : ℕ} {p : Vec d → ℝ} {ψ s : Vec d → Vec d}

theorem Spec.gradMap_single (g : Fin d → ℝ) (j : Fin d) : Spec.gradMap g (Pi.single j 1) = g j := by
  unfold Spec.gradMap
  simp [Pi.single_apply]

theorem IsScore.fderiv (h : Spec.IsScore p ψ) (x : Vec d) (j : Fin d) : fderiv ℝ p x (Pi.single j 1) = p x * ψ x j := by
  rw [(h.2 x).fderiv, Spec.gradMap_single]

theorem IsScore.diff (h : Spec.IsScore p ψ) : Differentiable ℝ p := fun x => (h.2 x).differentiableAt

theorem IsScore.measurable (h : Spec.IsScore p ψ) (j : Fin d) : Measurable fun x => p x * ψ x j := by
  have : (fun x => p x * ψ x j) = fun x => _root_.fderiv ℝ p x (Pi.single j 1) := by funext x; rw [IsScore.fderiv h]
  rw [this]
  exact measurable_fderiv_apply_const ℝ p _

/-- Mixed terms are integrable. -/
theorem Regular.int_mixed (h : Spec.IsScore p ψ) (r : Spec.Regular p ψ s) (i j : Fin d) : Integrable fun x => p x * ψ x j * s x i := by
  refine Integrable.mono' (((r.int_sq i).add (r.int_score j)).div_const 2) ?_ ?_
  · exact ((IsScore.measurable h j).mul ((continuous_apply i).comp r.diff.continuous).measurable).aestronglyMeasurable
  · filter_upwards with x
    rw [Real.norm_eq_abs]
    have hp := h.1 x
    simp only [Pi.add_apply]
    rw [abs_le]
    constructor <;> nlinarith [mul_nonneg hp (sq_nonneg (ψ x j + s x i)), mul_nonneg hp (sq_nonneg (ψ x j - s x i))]

/-- Integration by parts, entry by entry. -/
theorem Regular.parts (h : Spec.IsScore p ψ) (r : Spec.Regular p ψ s) (i j : Fin d) :
    ∫ x, p x * fderiv ℝ s x (Pi.single j 1) i = - ∫ x, p x * ψ x j * s x i := by
  have hd : ∀ x, fderiv ℝ (fun y => s y i) x (Pi.single j 1) = fderiv ℝ s x (Pi.single j 1) i := by
    intro x
    have := (hasFDerivAt_pi'.1 (r.diff x).hasFDerivAt i).fderiv
    rw [this]; rfl
  have key := integral_mul_fderiv_eq_neg_fderiv_mul_of_integrable (μ := (volume : Measure (Vec d))) (f := p) (g := fun y => s y i) (v := Pi.single j 1)
    (by simpa only [IsScore.fderiv h] using Regular.int_mixed h r i j) (by simpa only [hd] using r.int_deriv i j) (r.int i)
    (fun x _ => IsScore.diff h x) (fun x _ => (hasFDerivAt_pi'.1 (r.diff x).hasFDerivAt i).differentiableAt)
  simp only [hd, IsScore.fderiv h] at key
  exact key

theorem Spec.fderiv_apply_eq (s : Vec d → Vec d) (x v : Vec d) (i : Fin d) :
    fderiv ℝ s x v i = ∑ j, v j * fderiv ℝ s x (Pi.single j 1) i := by
  have hv : v = ∑ j, v j • (Pi.single j (1 : ℝ) : Vec d) := by
    funext k
    simp [Finset.sum_apply, Pi.single_apply]
  conv_lhs => rw [hv, map_sum]
  simp [Finset.sum_apply, map_smul]

theorem IsScore.int_score_mul (h : Spec.IsScore p ψ) (hi : ∀ i, Integrable fun x => p x * ψ x i ^ 2) (i j : Fin d) :
    Integrable fun x => p x * ψ x i * ψ x j := by
  refine Integrable.mono' (((hi i).add (hi j)).div_const 2) ?_ ?_
  · have : (fun x => p x * ψ x i * ψ x j) = fun x => (p x * ψ x i) * (p x * ψ x j) / p x := by
      funext x
      by_cases hp : p x = 0
      · simp [hp]
      · field_simp
    rw [this]
    exact (((IsScore.measurable h i).mul (IsScore.measurable h j)).div (IsScore.diff h).continuous.measurable).aestronglyMeasurable
  · filter_upwards with x
    rw [Real.norm_eq_abs]
    have hp := h.1 x
    simp only [Pi.add_apply]
    rw [abs_le]
    constructor <;> nlinarith [mul_nonneg hp (sq_nonneg (ψ x j + ψ x i)), mul_nonneg hp (sq_nonneg (ψ x j - ψ x i))]

theorem Regular.int_mul (h : Spec.IsScore p ψ) (r : Spec.Regular p ψ s) (i j : Fin d) : Integrable fun x => p x * s x i * s x j := by
  refine Integrable.mono' (((r.int_sq i).add (r.int_sq j)).div_const 2) ?_ ?_
  · exact (((IsScore.diff h).continuous.mul ((continuous_apply i).comp r.diff.continuous)).mul
      ((continuous_apply j).comp r.diff.continuous)).measurable.aestronglyMeasurable
  · filter_upwards with x
    rw [Real.norm_eq_abs]
    have hp := h.1 x
    simp only [Pi.add_apply]
    rw [abs_le]
    constructor <;> nlinarith [mul_nonneg hp (sq_nonneg (s x j + s x i)), mul_nonneg hp (sq_nonneg (s x j - s x i))]

/-- The expectation over the random vectors, at one point. -/
theorem expected_standard {ν : Measure (Vec d)} {C : Fin d → Fin d → ℝ} (hν : Spec.SecondMoments ν C) (s : Vec d → Vec d) (x : Vec d) :
    ∫ v, lossElement false (s x, fderiv ℝ s x v) v ∂ν =
      (∑ i, ∑ j, C i j * fderiv ℝ s x (Pi.single j 1) i) + 1 / 2 * ∑ i, ∑ j, C i j * (s x i * s x j) := by
  have hint : ∀ v : Vec d, lossElement false (s x, fderiv ℝ s x v) v =
      ∑ i, ∑ j, v i * v j * (fderiv ℝ s x (Pi.single j 1) i + 1 / 2 * (s x i * s x j)) := by
    intro v
    simp only [lossElement, Bool.false_eq_true, if_false, vdot, Spec.fderiv_apply_eq s x v]
    rw [pow_two, Finset.sum_mul_sum, Finset.mul_sum, ← Finset.sum_add_distrib]
    refine Finset.sum_congr rfl fun i _ => ?_
    rw [Finset.mul_sum, Finset.mul_sum, ← Finset.sum_add_distrib]
    exact Finset.sum_congr rfl fun j _ => by ring
  simp only [hint]
  rw [integral_finsetSum _ fun i _ => integrable_finsetSum _ fun j _ => (hν i j).1.mul_const _, Finset.mul_sum, ← Finset.sum_add_distrib]
  refine Finset.sum_congr rfl fun i _ => ?_
  rw [integral_finsetSum _ fun j _ => (hν i j).1.mul_const _, Finset.mul_sum, ← Finset.sum_add_distrib]
  refine Finset.sum_congr rfl fun j _ => ?_
  rw [integral_mul_const, (hν i j).2]
  ring

theorem expected_analytic {ν : Measure (Vec d)} [IsProbabilityMeasure ν] {C : Fin d → Fin d → ℝ} (hν : Spec.SecondMoments ν C) (s : Vec d → Vec d) (x : Vec d) :
    ∫ v, lossElement true (s x, fderiv ℝ s x v) v ∂ν =
      (∑ i, ∑ j, C i j * fderiv ℝ s x (Pi.single j 1) i) + 1 / 2 * ∑ i, s x i * s x i := by
  have hint : ∀ v : Vec d, lossElement true (s x, fderiv ℝ s x v) v =
      (∑ i, ∑ j, v i * v j * (fderiv ℝ s x (Pi.single j 1) i)) + 1 / 2 * ∑ i, s x i * s x i := by
    intro v
    simp only [lossElement, if_true, vdot, Spec.fderiv_apply_eq s x v]
    congr 1
    refine Finset.sum_congr rfl fun i _ => ?_
    rw [Finset.mul_sum]
    exact Finset.sum_congr rfl fun j _ => by ring
  simp only [hint]
  rw [integral_add (integrable_finsetSum _ fun i _ => integrable_finsetSum _ fun j _ => (hν i j).1.mul_const _) (integrable_const _),
    integral_finsetSum _ fun i _ => integrable_finsetSum _ fun j _ => (hν i j).1.mul_const _]
  congr 1
  · refine Finset.sum_congr rfl fun i _ => ?_
    rw [integral_finsetSum _ fun j _ => (hν i j).1.mul_const _]
    refine Finset.sum_congr rfl fun j _ => ?_
    rw [integral_mul_const, (hν i j).2]
  · simp

theorem SecondMoments.symm {ν : Measure (Vec d)} {C : Fin d → Fin d → ℝ} (hν : Spec.SecondMoments ν C) (i j : Fin d) : C i j = C j i := by
  rw [← (hν i j).2, ← (hν j i).2]
  simp only [mul_comm]

/-- Integration by parts against a constant matrix. -/
theorem Regular.parts_sum (h : Spec.IsScore p ψ) (r : Spec.Regular p ψ s) (C : Fin d → Fin d → ℝ) :
    (Integrable fun x => p x * ∑ i, ∑ j, C i j * fderiv ℝ s x (Pi.single j 1) i) ∧
    (Integrable fun x => ∑ i, ∑ j, C i j * (p x * ψ x j * s x i)) ∧
    ∫ x, p x * ∑ i, ∑ j, C i j * fderiv ℝ s x (Pi.single j 1) i = - ∫ x, ∑ i, ∑ j, C i j * (p x * ψ x j * s x i) := by
  have he : (fun x => p x * ∑ i, ∑ j, C i j * fderiv ℝ s x (Pi.single j 1) i) =
      fun x => ∑ i, ∑ j, C i j * (p x * fderiv ℝ s x (Pi.single j 1) i) := by
    funext x
    rw [Finset.mul_sum]
    refine Finset.sum_congr rfl fun i _ => ?_
    rw [Finset.mul_sum]
    exact Finset.sum_congr rfl fun j _ => by ring
  have h1 : ∀ i, ∀ j, Integrable fun x => C i j * (p x * fderiv ℝ s x (Pi.single j 1) i) := fun i j => (r.int_deriv i j).const_mul _
  have h2 : ∀ i, ∀ j, Integrable fun x => C i j * (p x * ψ x j * s x i) := fun i j => (Regular.int_mixed h r i j).const_mul _
  refine ⟨?_, integrable_finsetSum _ fun i _ => integrable_finsetSum _ fun j _ => h2 i j, ?_⟩
  · rw [he]; exact integrable_finsetSum _ fun i _ => integrable_finsetSum _ fun j _ => h1 i j
  · rw [he, integral_finsetSum _ fun i _ => integrable_finsetSum _ fun j _ => h1 i j,
      integral_finsetSum _ fun i _ => integrable_finsetSum _ fun j _ => h2 i j, ← Finset.sum_neg_distrib]
    refine Finset.sum_congr rfl fun i _ => ?_
    rw [integral_finsetSum _ fun j _ => h1 i j, integral_finsetSum _ fun j _ => h2 i j, ← Finset.sum_neg_distrib]
    refine Finset.sum_congr rfl fun j _ => ?_
    rw [integral_const_mul, integral_const_mul, Regular.parts h r i j]
    ring

end Coreax
