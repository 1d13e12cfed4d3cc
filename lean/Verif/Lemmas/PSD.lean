import Verif.Lemmas.Kernel
import Mathlib.Analysis.SpecialFunctions.Gamma.Basic
import Mathlib.Analysis.SpecialFunctions.Gaussian.GaussianIntegral
import Mathlib.Analysis.SpecialFunctions.Complex.LogBounds
import Mathlib.Analysis.SpecialFunctions.ContinuousFunctionalCalculus.Rpow.IntegralRepresentation
import Mathlib.MeasureTheory.Integral.IntegralEqImproper
import Mathlib.Analysis.SpecialFunctions.ExpDeriv
import Mathlib.Analysis.SpecialFunctions.Sqrt
import Mathlib.Analysis.SpecificLimits.Normed

/-!
# Closure properties of positive semi-definite kernels

Pointwise limits, exponentials, mixtures, Schoenberg's theorem; inverse powers and half-integer Matérn functions of a
squared distance.
-/

set_option linter.unusedSectionVars false

namespace Coreax.Spec

open Filter Topology MeasureTheory Set

variable {X : Type*}

theorem IsPSD.congr {k r : X → X → ℝ} (hk : IsPSD k) (h : ∀ a b, r a b = k a b) : IsPSD r := by
  have : r = k := by funext a b; exact h a b
  rwa [this]

/-- Pointwise limits. -/
theorem isPSD_of_tendsto {k : ℕ → X → X → ℝ} {r : X → X → ℝ} (hk : ∀ n, IsPSD (k n))
    (h : ∀ a b, Tendsto (fun n => k n a b) atTop (𝓝 (r a b))) : IsPSD r := by
  refine ⟨fun a b => ?_, fun n x c => ?_⟩
  · refine tendsto_nhds_unique (h a b) ?_
    simpa only [(hk _).1 a b] using h b a
  · have ht : Tendsto (fun m => ∑ i, ∑ j, c i * c j * k m (x i) (x j)) atTop (𝓝 (∑ i, ∑ j, c i * c j * r (x i) (x j))) :=
      tendsto_finsetSum _ fun i _ => tendsto_finsetSum _ fun j _ => (h (x i) (x j)).const_mul _
    exact ge_of_tendsto' ht fun m => (hk m).2 n x c

theorem IsPSD.exp {k : X → X → ℝ} (hk : IsPSD k) : IsPSD (fun a b => Real.exp (k a b)) := by
  refine isPSD_of_tendsto (k := fun n a b => (1 + k a b / n) ^ n) (fun n => ?_)
    (fun a b => Real.tendsto_one_add_div_pow_exp (k a b))
  refine IsPSD.pow ?_ n
  refine (isPSD_const zero_le_one).add ?_
  exact (hk.smul (a := 1 / (n : ℝ)) (by positivity)).congr fun a b => by ring

/-- Rank one kernels. -/
theorem isPSD_rankOne (f : X → ℝ) : IsPSD (fun a b => f a * f b) :=
  (isPSD_of_feature f).congr fun a b => by simp [mul_comm]

theorem isPSD_sum {ι : Type*} (s : Finset ι) {k : ι → X → X → ℝ} (h : ∀ i ∈ s, IsPSD (k i)) :
    IsPSD (fun a b => ∑ i ∈ s, k i a b) := by
  classical
  induction s using Finset.induction_on with
  | empty => simpa using isPSD_const (X := X) le_rfl
  | insert i s hi ih =>
    simp only [Finset.sum_insert hi]
    exact (h i (Finset.mem_insert_self _ _)).add (ih fun j hj => h j (Finset.mem_insert_of_mem hj))

/-- Mixtures. -/
theorem isPSD_integral {T : Type*} [MeasurableSpace T] (μ : Measure T) {k : T → X → X → ℝ}
    (hi : ∀ a b, Integrable (fun t => k t a b) μ) (hk : ∀ᵐ t ∂μ, IsPSD (k t)) :
    IsPSD (fun a b => ∫ t, k t a b ∂μ) := by
  refine ⟨fun a b => integral_congr_ae (hk.mono fun t ht => ht.1 a b), fun n x c => ?_⟩
  have : ∑ i, ∑ j, c i * c j * ∫ t, k t (x i) (x j) ∂μ = ∫ t, ∑ i, ∑ j, c i * c j * k t (x i) (x j) ∂μ := by
    rw [integral_finsetSum _ fun i _ => integrable_finsetSum _ fun j _ => (hi _ _).const_mul _]
    refine Finset.sum_congr rfl fun i _ => ?_
    rw [integral_finsetSum _ fun j _ => (hi _ _).const_mul _]
    exact Finset.sum_congr rfl fun j _ => (integral_const_mul _ _).symm
  rw [this]
  exact integral_nonneg_of_ae (hk.mono fun t ht => ht.2 n x c)

/-- Conditionally negative definite functions. -/
def IsCND (ψ : X → X → ℝ) : Prop :=
  (∀ a b, ψ a b = ψ b a) ∧
    ∀ (n : ℕ) (x : Fin n → X) (c : Fin n → ℝ), ∑ i, c i = 0 → ∑ i, ∑ j, c i * c j * ψ (x i) (x j) ≤ 0

theorem IsCND.add {ψ χ : X → X → ℝ} (h : IsCND ψ) (h' : IsCND χ) : IsCND (fun a b => ψ a b + χ a b) := by
  refine ⟨fun a b => by simp only [h.1 a b, h'.1 a b], fun n x c hc => ?_⟩
  simp only [mul_add, Finset.sum_add_distrib]
  exact add_nonpos (h.2 n x c hc) (h'.2 n x c hc)

theorem isCND_zero : IsCND (fun _ _ : X => (0 : ℝ)) := ⟨fun _ _ => rfl, fun n x c _ => by simp⟩

theorem IsCND.sum {ι : Type*} (s : Finset ι) {ψ : ι → X → X → ℝ} (h : ∀ i ∈ s, IsCND (ψ i)) :
    IsCND (fun a b => ∑ i ∈ s, ψ i a b) := by
  classical
  induction s using Finset.induction_on with
  | empty => simpa using isCND_zero (X := X)
  | insert i s hi ih =>
    simp only [Finset.sum_insert hi]
    exact (h i (Finset.mem_insert_self _ _)).add (ih fun j hj => h j (Finset.mem_insert_of_mem hj))

theorem IsCND.smul {ψ : X → X → ℝ} (h : IsCND ψ) {r : ℝ} (hr : 0 ≤ r) : IsCND (fun a b => r * ψ a b) := by
  refine ⟨fun a b => by simp only [h.1 a b], fun n x c hc => ?_⟩
  have : ∑ i, ∑ j, c i * c j * (r * ψ (x i) (x j)) = r * ∑ i, ∑ j, c i * c j * ψ (x i) (x j) := by
    simp only [Finset.mul_sum]
    exact Finset.sum_congr rfl fun i _ => Finset.sum_congr rfl fun j _ => by ring
  rw [this]
  exact mul_nonpos_of_nonneg_of_nonpos hr (h.2 n x c hc)

/-- The kernel obtained from a conditionally negative definite function and a base point. -/
theorem IsCND.isPSD_center {ψ : X → X → ℝ} (h : IsCND ψ) (o : X) :
    IsPSD (fun a b => ψ a o + ψ o b - ψ a b - ψ o o) := by
  refine ⟨fun a b => by simp only [h.1 a b, h.1 a o, h.1 b o]; ring, fun n x c => ?_⟩
  have h1 := h.2 (n + 1) (Fin.cons o x) (Fin.cons (-∑ i, c i) c) (by rw [Fin.sum_univ_succ]; simp)
  simp only [Fin.sum_univ_succ, Fin.cons_zero, Fin.cons_succ] at h1
  have e1 : ∑ i, ∑ j, c i * c j * (ψ (x i) o + ψ o (x j) - ψ (x i) (x j) - ψ o o)
      = (∑ j, c j) * (∑ i, c i * ψ (x i) o) + (∑ i, c i) * (∑ j, c j * ψ o (x j))
        - (∑ i, ∑ j, c i * c j * ψ (x i) (x j)) - (∑ i, c i) * (∑ j, c j) * ψ o o := by
    have f1 : (∑ j, c j) * (∑ i, c i * ψ (x i) o) = ∑ i, ∑ j, c i * c j * ψ (x i) o := by
      rw [mul_comm, Finset.sum_mul_sum]
      exact Finset.sum_congr rfl fun i _ => Finset.sum_congr rfl fun j _ => by ring
    have f2 : (∑ i, c i) * (∑ j, c j * ψ o (x j)) = ∑ i, ∑ j, c i * c j * ψ o (x j) := by
      rw [Finset.sum_mul_sum]
      exact Finset.sum_congr rfl fun i _ => Finset.sum_congr rfl fun j _ => by ring
    have f3 : (∑ i, c i) * (∑ j, c j) * ψ o o = ∑ i, ∑ j, c i * c j * ψ o o := by
      rw [Finset.sum_mul_sum]
      simp only [Finset.sum_mul]
    rw [f1, f2, f3]
    simp only [mul_add, mul_sub, Finset.sum_add_distrib, Finset.sum_sub_distrib]
  have e2 : ∑ j, -(∑ i, c i) * c j * ψ o (x j) = -(∑ i, c i) * ∑ j, c j * ψ o (x j) := by
    rw [Finset.mul_sum]
    exact Finset.sum_congr rfl fun j _ => by ring
  have e3 : ∑ i, c i * -(∑ j, c j) * ψ (x i) o = -(∑ i, c i) * ∑ i, c i * ψ (x i) o := by
    rw [Finset.mul_sum]
    exact Finset.sum_congr rfl fun j _ => by ring
  rw [e2, Finset.sum_add_distrib, e3] at h1
  rw [e1]
  nlinarith [h1]

/-- Schoenberg: the exponential of the negative of a conditionally negative definite function. -/
theorem IsCND.exp_neg {ψ : X → X → ℝ} (h : IsCND ψ) : IsPSD (fun a b => Real.exp (-ψ a b)) := by
  rcases isEmpty_or_nonempty X with he | ⟨⟨o⟩⟩
  · exact ⟨fun a => isEmptyElim a, fun n x c => by
      refine (Finset.sum_eq_zero fun i _ => isEmptyElim (x i)).ge⟩
  · have h1 := (h.isPSD_center o).exp
    have h2 := (isPSD_rankOne (fun a => Real.exp (-ψ a o))).mul h1
    have h3 := h2.smul (a := Real.exp (ψ o o)) (Real.exp_pos _).le
    refine h3.congr fun a b => ?_
    rw [← Real.exp_add, ← Real.exp_add, ← Real.exp_add, h.1 b o]
    congr 1
    ring

/-- A kernel of squared-distance type: non-negative, with all Gaussians positive semi-definite. -/
def IsSqDist (q : X → X → ℝ) : Prop := (∀ a b, 0 ≤ q a b) ∧ ∀ t : ℝ, 0 ≤ t → IsPSD (fun a b => Real.exp (-(t * q a b)))

theorem IsSqDist.comm {q : X → X → ℝ} (h : IsSqDist q) (a b : X) : q a b = q b a := by
  have := Real.exp_injective ((h.2 1 zero_le_one).1 a b)
  linarith

/-- Inverse powers. -/
theorem IsSqDist.inv_pow {q : X → X → ℝ} (h : IsSqDist q) {c p : ℝ} (hc : 0 < c) (hp : 0 < p) :
    IsPSD (fun a b => (c + q a b) ^ (-p)) := by
  have key : ∀ a b, (c + q a b) ^ (-p)
      = (Real.Gamma p)⁻¹ * ∫ t in Ioi (0 : ℝ), t ^ (p - 1) * Real.exp (-((c + q a b) * t)) := by
    intro a b
    have hpos : 0 < c + q a b := add_pos_of_pos_of_nonneg hc (h.1 a b)
    rw [Real.integral_rpow_mul_exp_neg_mul_Ioi hp hpos, Real.rpow_neg hpos.le, one_div, Real.inv_rpow hpos.le]
    have := (Real.Gamma_pos_of_pos hp).ne'
    field_simp
  have hint : ∀ a b, IntegrableOn (fun t => t ^ (p - 1) * Real.exp (-((c + q a b) * t))) (Ioi (0 : ℝ)) := by
    intro a b
    have hpos : 0 < c + q a b := add_pos_of_pos_of_nonneg hc (h.1 a b)
    have := integrableOn_rpow_mul_exp_neg_mul_rpow (p := 1) (s := p - 1) (b := c + q a b) (by linarith) zero_lt_one hpos
    simpa only [Real.rpow_one, neg_mul] using this
  have h1 : IsPSD (fun a b => ∫ t in Ioi (0 : ℝ), t ^ (p - 1) * Real.exp (-((c + q a b) * t))) := by
    refine isPSD_integral _ hint ?_
    refine (ae_restrict_iff' measurableSet_Ioi).2 (ae_of_all _ fun t ht => ?_)
    have ht : 0 < t := ht
    have h2 := (h.2 t ht.le).smul (a := t ^ (p - 1) * Real.exp (-(c * t))) (by positivity)
    refine h2.congr fun a b => ?_
    rw [mul_assoc, ← Real.exp_add]
    congr 2
    ring
  exact (h1.smul (a := (Real.Gamma p)⁻¹) (inv_nonneg.2 (Real.Gamma_pos_of_pos hp).le)).congr key

/-- The distance (with an offset under the root) is conditionally negative definite. -/
theorem IsSqDist.sqrt_isCND {q : X → X → ℝ} (h : IsSqDist q) {τ : ℝ} (hτ : 0 ≤ τ) :
    IsCND (fun a b => Real.sqrt (q a b + τ)) := by
  refine ⟨fun a b => by simp only [h.comm a b], fun n x c hc => ?_⟩
  have hp : (1 / 2 : ℝ) ∈ Ioo (0 : ℝ) 1 := by constructor <;> norm_num
  have hnn : ∀ a b, 0 ≤ q a b + τ := fun a b => add_nonneg (h.1 a b) hτ
  have key : ∀ a b, Real.sqrt (q a b + τ) = (∫ t in Ioi (0 : ℝ), Real.rpowIntegrand₀₁ (1 / 2) t 1)⁻¹
      * ∫ t in Ioi (0 : ℝ), Real.rpowIntegrand₀₁ (1 / 2) t (q a b + τ) := by
    intro a b
    rw [Real.sqrt_eq_rpow]
    exact Real.rpow_eq_const_mul_integral hp (hnn a b)
  have hC := Real.integral_rpowIntegrand₀₁_one_pos hp
  simp only [key]
  have e : ∑ i, ∑ j, c i * c j * ((∫ t in Ioi (0 : ℝ), Real.rpowIntegrand₀₁ (1 / 2) t 1)⁻¹
      * ∫ t in Ioi (0 : ℝ), Real.rpowIntegrand₀₁ (1 / 2) t (q (x i) (x j) + τ))
      = (∫ t in Ioi (0 : ℝ), Real.rpowIntegrand₀₁ (1 / 2) t 1)⁻¹
        * ∫ t in Ioi (0 : ℝ), ∑ i, ∑ j, c i * c j * Real.rpowIntegrand₀₁ (1 / 2) t (q (x i) (x j) + τ) := by
    have hI : ∀ i j, Integrable (fun t => c i * c j * Real.rpowIntegrand₀₁ (1 / 2) t (q (x i) (x j) + τ))
        (volume.restrict (Ioi 0)) := fun i j => (Real.integrableOn_rpowIntegrand₀₁_Ioi hp (hnn _ _)).const_mul _
    rw [integral_finsetSum _ fun i _ => integrable_finsetSum _ fun j _ => hI i j, Finset.mul_sum]
    refine Finset.sum_congr rfl fun i _ => ?_
    rw [integral_finsetSum _ fun j _ => hI i j, Finset.mul_sum]
    refine Finset.sum_congr rfl fun j _ => ?_
    rw [integral_const_mul]
    ring
  rw [e]
  refine mul_nonpos_of_nonneg_of_nonpos (inv_nonneg.2 hC.le) ?_
  refine setIntegral_nonpos measurableSet_Ioi fun t ht => ?_
  have ht : 0 < t := ht
  have hpsd := (h.inv_pow (c := t + τ) (p := 1) (by linarith) one_pos).2 n x c
  have e2 : ∑ i, ∑ j, c i * c j * Real.rpowIntegrand₀₁ (1 / 2) t (q (x i) (x j) + τ)
      = t ^ (1 / 2 : ℝ) * t⁻¹ * ((∑ i, c i) * ∑ j, c j)
        - t ^ (1 / 2 : ℝ) * ∑ i, ∑ j, c i * c j * (t + τ + q (x i) (x j)) ^ (-1 : ℝ) := by
    rw [Finset.sum_mul_sum]
    simp only [Finset.mul_sum, ← Finset.sum_sub_distrib]
    refine Finset.sum_congr rfl fun i _ => Finset.sum_congr rfl fun j _ => ?_
    rw [Real.rpowIntegrand₀₁, Real.rpow_neg_one, show t + (q (x i) (x j) + τ) = t + τ + q (x i) (x j) by ring]
    ring
  rw [e2, hc]
  have := mul_nonneg (Real.rpow_nonneg ht.le (1 / 2)) hpsd
  linarith

/-- Exponential of a distance. -/
theorem IsSqDist.exp_sqrt {q : X → X → ℝ} (h : IsSqDist q) {τ a : ℝ} (hτ : 0 ≤ τ) (ha : 0 ≤ a) :
    IsPSD (fun x y => Real.exp (-(a * Real.sqrt (q x y + τ)))) :=
  ((h.sqrt_isCND hτ).smul ha).exp_neg

end Coreax.Spec
