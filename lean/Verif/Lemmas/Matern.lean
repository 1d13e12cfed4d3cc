import Verif.Lemmas.PSD

/-!
# Half-integer Matérn functions of a squared distance are positive semi-definite
-/

set_option linter.unusedSectionVars false

namespace Coreax.Spec

open Filter Topology MeasureTheory Set

variable {X : Type*}

/-- Coefficients of the Bessel polynomials. -/
noncomputable def bessC (p j : ℕ) : ℝ := ((2 * p - j).factorial : ℝ) / ((p - j).factorial * j.factorial)

/-- Reverse Bessel polynomials (in `v = 2u`). -/
noncomputable def bessQ (p : ℕ) (v : ℝ) : ℝ := ∑ j ∈ Finset.range (p + 1), bessC p j * v ^ j

theorem bessC_pos (p j : ℕ) : 0 < bessC p j := by unfold bessC; positivity

theorem bessQ_nonneg (p : ℕ) {v : ℝ} (hv : 0 ≤ v) : 0 ≤ bessQ p v :=
  Finset.sum_nonneg fun j _ => mul_nonneg (bessC_pos p j).le (pow_nonneg hv j)

theorem bessC_rec (m j : ℕ) (hj : j < m) :
    2 * ((j + 2 : ℕ) : ℝ) * bessC (m + 1) (j + 2) = bessC (m + 1) (j + 1) - bessC m j := by
  obtain ⟨r, rfl⟩ : ∃ r, m = j + 1 + r := ⟨m - (j + 1), by omega⟩
  unfold bessC
  rw [show 2 * (j + 1 + r + 1) - (j + 2) = j + 2 * r + 2 by omega, show j + 1 + r + 1 - (j + 2) = r by omega,
    show 2 * (j + 1 + r + 1) - (j + 1) = j + 2 * r + 2 + 1 by omega, show j + 1 + r + 1 - (j + 1) = r + 1 by omega,
    show 2 * (j + 1 + r) - j = j + 2 * r + 2 by omega, show j + 1 + r - j = r + 1 by omega]
  rw [Nat.factorial_succ (j + 2 * r + 2), Nat.factorial_succ r, Nat.factorial_succ (j + 1), Nat.factorial_succ j]
  have h1 : ((j + 2 * r + 2).factorial : ℝ) ≠ 0 := by positivity
  have h2 : (r.factorial : ℝ) ≠ 0 := by positivity
  have h3 : (j.factorial : ℝ) ≠ 0 := by positivity
  push_cast
  have h4 : (r : ℝ) + 1 ≠ 0 := by positivity
  have h5 : (j : ℝ) + 1 ≠ 0 := by positivity
  have h6 : (j : ℝ) + 1 + 1 ≠ 0 := by positivity
  field_simp
  ring

theorem bessC_zero (m : ℕ) : 2 * bessC (m + 1) 1 = bessC (m + 1) 0 := by
  unfold bessC
  rw [show 2 * (m + 1) - 1 = 2 * m + 1 by omega, show 2 * (m + 1) - 0 = 2 * m + 1 + 1 by omega,
    show m + 1 - 1 = m by omega, show m + 1 - 0 = m + 1 by omega, Nat.factorial_succ (2 * m + 1), Nat.factorial_succ m]
  have h2 : (m.factorial : ℝ) ≠ 0 := by positivity
  push_cast
  have h4 : (m : ℝ) + 1 ≠ 0 := by positivity
  simp
  field_simp
  ring

theorem bessC_top (m : ℕ) : bessC (m + 1) (m + 1) = bessC m m := by
  unfold bessC
  rw [show 2 * (m + 1) - (m + 1) = m + 1 by omega, show 2 * m - m = m by omega]
  have h1 : (m.factorial : ℝ) ≠ 0 := by positivity
  have h2 : ((m + 1).factorial : ℝ) ≠ 0 := by positivity
  simp
  field_simp

theorem hasDerivAt_bessQ (m : ℕ) (v : ℝ) :
    HasDerivAt (bessQ (m + 1)) ((bessQ (m + 1) v - v * bessQ m v) / 2) v := by
  have h : HasDerivAt (bessQ (m + 1)) (∑ j ∈ Finset.range (m + 1 + 1), bessC (m + 1) j * (j * v ^ (j - 1))) v := by
    unfold bessQ
    exact HasDerivAt.fun_sum fun j _ => (hasDerivAt_pow j v).const_mul _
  refine h.congr_deriv ?_
  rw [eq_div_iff two_ne_zero, Finset.sum_range_succ', Finset.sum_range_succ']
  have e1 : bessQ (m + 1) v - v * bessQ m v = bessC (m + 1) 0
      + ∑ j ∈ Finset.range m, (bessC (m + 1) (j + 1) - bessC m j) * v ^ (j + 1) := by
    unfold bessQ
    rw [Finset.sum_range_succ' _ (m + 1), Finset.sum_range_succ, Finset.sum_range_succ _ m, bessC_top]
    simp only [Finset.mul_sum, mul_add, sub_mul, Finset.sum_sub_distrib, pow_zero, mul_one]
    have : ∀ j, v * (bessC m j * v ^ j) = bessC m j * v ^ (j + 1) := fun j => by ring
    simp only [this]
    ring
  rw [e1, ← bessC_zero]
  simp only [Finset.sum_mul, add_mul, Nat.cast_zero, zero_mul, mul_zero, add_zero]
  have : ∀ j ∈ Finset.range m, bessC (m + 1) (j + 1 + 1) * (((j + 1 + 1 : ℕ) : ℝ) * v ^ (j + 1 + 1 - 1)) * 2
      = (bessC (m + 1) (j + 1) - bessC m j) * v ^ (j + 1) := by
    intro j hj
    rw [← bessC_rec m j (Finset.mem_range.1 hj)]
    simp only [Nat.add_sub_cancel]
    ring
  rw [Finset.sum_congr rfl this]
  simp
  ring

/-- The Matérn profile. -/
noncomputable def matG (p : ℕ) (u : ℝ) : ℝ := Real.exp (-u) * bessQ p (2 * u)

theorem hasDerivAt_matG (m : ℕ) (u : ℝ) : HasDerivAt (matG (m + 1)) (-(2 * u) * matG m u) u := by
  have h1 : HasDerivAt (fun u : ℝ => 2 * u) 2 u := by simpa using (hasDerivAt_id u).const_mul (2 : ℝ)
  have h2 := (hasDerivAt_bessQ m (2 * u)).comp u h1
  have h3 : HasDerivAt (fun u : ℝ => Real.exp (-u)) (-Real.exp (-u)) u := by
    simpa using (hasDerivAt_id u).fun_neg.exp
  have h4 : HasDerivAt (matG (m + 1)) _ u := h3.mul h2
  refine h4.congr_deriv ?_
  simp only [matG, Function.comp]
  ring

theorem continuous_bessQ (p : ℕ) : Continuous (bessQ p) := by
  unfold bessQ
  fun_prop

theorem continuous_matG (p : ℕ) : Continuous (matG p) := by
  have := continuous_bessQ p
  unfold matG
  fun_prop

theorem matG_nonneg (p : ℕ) {u : ℝ} (hu : 0 ≤ u) : 0 ≤ matG p u :=
  mul_nonneg (Real.exp_pos _).le (bessQ_nonneg p (by linarith))

theorem tendsto_matG (p : ℕ) : Tendsto (matG p) atTop (𝓝 0) := by
  have h : ∀ j : ℕ, Tendsto (fun u : ℝ => bessC p j * 2 ^ j * (u ^ j * Real.exp (-u))) atTop (𝓝 (bessC p j * 2 ^ j * 0)) :=
    fun j => (Real.tendsto_pow_mul_exp_neg_atTop_nhds_zero j).const_mul _
  have h2 := tendsto_finsetSum (Finset.range (p + 1)) fun j _ => h j
  simp only [mul_zero, Finset.sum_const_zero] at h2
  refine h2.congr fun u => ?_
  simp only [matG, bessQ, Finset.mul_sum]
  exact Finset.sum_congr rfl fun j _ => by rw [mul_pow]; ring

/-- Matérn functions of order `p + 1/2`, with an offset under the root. -/
theorem IsSqDist.matern {q : X → X → ℝ} (h : IsSqDist q) {a : ℝ} (ha : 0 < a) (p : ℕ) {τ : ℝ} (hτ : 0 ≤ τ) :
    IsPSD (fun x y => matG p (a * Real.sqrt (q x y + τ))) := by
  induction p generalizing τ with
  | zero =>
    refine (h.exp_sqrt hτ ha.le).congr fun x y => ?_
    simp [matG, bessQ, bessC]
  | succ m ih =>
    have key : ∀ s : ℝ, 0 ≤ s →
        IntegrableOn (fun σ => -(a ^ 2) * matG m (a * Real.sqrt (s + σ))) (Ioi 0) ∧
        ∫ σ in Ioi (0 : ℝ), -(a ^ 2) * matG m (a * Real.sqrt (s + σ)) = 0 - matG (m + 1) (a * Real.sqrt (s + 0)) := by
      intro s hs
      have hcont : ContinuousWithinAt (fun σ => matG (m + 1) (a * Real.sqrt (s + σ))) (Ici 0) 0 := by
        have := continuous_matG (m + 1)
        have : Continuous (fun σ => matG (m + 1) (a * Real.sqrt (s + σ))) := by fun_prop
        exact this.continuousWithinAt
      have hder : ∀ σ ∈ Ioi (0 : ℝ), HasDerivAt (fun σ => matG (m + 1) (a * Real.sqrt (s + σ)))
          (-(a ^ 2) * matG m (a * Real.sqrt (s + σ))) σ := by
        intro σ hσ
        have hσ : 0 < σ := hσ
        have hp : 0 < s + σ := by linarith
        have h1 : HasDerivAt (fun σ => s + σ) 1 σ := (hasDerivAt_id σ).const_add s
        have h2 := (h1.sqrt hp.ne').const_mul a
        have h3 := (hasDerivAt_matG m (a * Real.sqrt (s + σ))).comp σ h2
        refine h3.congr_deriv ?_
        have h4 := Real.sqrt_pos.2 hp
        field_simp
      have hneg : ∀ σ ∈ Ioi (0 : ℝ), -(a ^ 2) * matG m (a * Real.sqrt (s + σ)) ≤ 0 := by
        intro σ _
        have := matG_nonneg m (mul_nonneg ha.le (Real.sqrt_nonneg (s + σ)))
        nlinarith [sq_nonneg a, mul_nonneg (sq_nonneg a) this]
      have hlim : Tendsto (fun σ => matG (m + 1) (a * Real.sqrt (s + σ))) atTop (𝓝 0) := by
        refine (tendsto_matG (m + 1)).comp (Tendsto.const_mul_atTop ha ?_)
        exact Real.tendsto_sqrt_atTop.comp (tendsto_atTop_add_const_left _ _ tendsto_id)
      exact ⟨integrableOn_Ioi_deriv_of_nonpos hcont hder hneg hlim,
        integral_Ioi_of_hasDerivAt_of_nonpos hcont hder hneg hlim⟩
    have hnn : ∀ x y, 0 ≤ q x y + τ := fun x y => add_nonneg (h.1 x y) hτ
    have hI : ∀ x y, IntegrableOn (fun σ => matG m (a * Real.sqrt (q x y + τ + σ))) (Ioi 0) := by
      intro x y
      have := (key _ (hnn x y)).1.const_mul (-(a ^ 2))⁻¹
      refine this.congr (ae_of_all _ fun σ => ?_)
      have : a ^ 2 ≠ 0 := by positivity
      field_simp
    have h1 : IsPSD (fun x y => ∫ σ in Ioi (0 : ℝ), matG m (a * Real.sqrt (q x y + τ + σ))) := by
      refine isPSD_integral _ hI ((ae_restrict_iff' measurableSet_Ioi).2 (ae_of_all _ fun σ hσ => ?_))
      have hσ : 0 < σ := hσ
      simpa only [add_assoc] using ih (τ := τ + σ) (by linarith)
    refine (h1.smul (sq_nonneg a)).congr fun x y => ?_
    have h2 := (key _ (hnn x y)).2
    rw [integral_const_mul, add_zero] at h2
    linarith

theorem isPSD_prod {ι : Type*} (s : Finset ι) {k : ι → X → X → ℝ} (h : ∀ i ∈ s, IsPSD (k i)) :
    IsPSD (fun a b => ∏ i ∈ s, k i a b) := by
  classical
  induction s using Finset.induction_on with
  | empty => simpa using isPSD_const (X := X) zero_le_one
  | insert i s hi ih =>
    simp only [Finset.prod_insert hi]
    exact (h i (Finset.mem_insert_self _ _)).mul (ih fun j hj => h j (Finset.mem_insert_of_mem hj))

/-- Squared differences of a real feature. -/
theorem isSqDist_real (f : X → ℝ) : IsSqDist (fun a b => (f a - f b) ^ 2) := by
  refine ⟨fun a b => sq_nonneg _, fun t ht => ?_⟩
  have h1 := ((isPSD_rankOne f).smul (a := 2 * t) (by linarith)).exp
  have h2 := (isPSD_rankOne (fun a => Real.exp (-(t * f a ^ 2)))).mul h1
  refine h2.congr fun a b => ?_
  rw [← Real.exp_add, ← Real.exp_add]
  congr 1
  ring

theorem IsSqDist.sum {ι : Type*} (s : Finset ι) {q : ι → X → X → ℝ} (h : ∀ i ∈ s, IsSqDist (q i)) :
    IsSqDist (fun a b => ∑ i ∈ s, q i a b) := by
  refine ⟨fun a b => Finset.sum_nonneg fun i hi => (h i hi).1 a b, fun t ht => ?_⟩
  refine (isPSD_prod s fun i hi => (h i hi).2 t ht).congr fun a b => ?_
  rw [Finset.mul_sum, ← Finset.sum_neg_distrib, Real.exp_sum]

theorem IsSqDist.scale {q : X → X → ℝ} (h : IsSqDist q) {r : ℝ} (hr : 0 ≤ r) : IsSqDist (fun a b => r * q a b) := by
  refine ⟨fun a b => mul_nonneg hr (h.1 a b), fun t ht => ?_⟩
  exact (h.2 (t * r) (mul_nonneg ht hr)).congr fun a b => by rw [mul_assoc]

theorem isPSD_cos (f : X → ℝ) : IsPSD (fun a b => Real.cos (f a - f b)) :=
  ((isPSD_rankOne fun a => Real.cos (f a)).add (isPSD_rankOne fun a => Real.sin (f a))).congr
    fun a b => Real.cos_sub _ _

/-- Geometric series. -/
theorem IsPSD.geom {k : X → X → ℝ} (hk : IsPSD k) (h : ∀ a b, |k a b| < 1) : IsPSD (fun a b => (1 - k a b)⁻¹) := by
  refine isPSD_of_tendsto (k := fun n a b => ∑ i ∈ Finset.range n, k a b ^ i) (fun n => isPSD_sum _ fun i _ => hk.pow i)
    fun a b => ?_
  exact (hasSum_geometric_of_abs_lt_one (h a b)).tendsto_sum_nat

end Coreax.Spec
