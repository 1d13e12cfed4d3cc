import Verif.Props.SteinKernel
import Verif.Props.Equivariance
import Mathlib.Analysis.SpecialFunctions.Gaussian.GaussianIntegral
import Mathlib.MeasureTheory.Integral.Pi

/-!
# C80: the kernel that is called normalised
-/

namespace Coreax

open Finset MeasureTheory Spec

namespace Normalised

theorem integral_gauss (l c : ℝ) : ∫ y : ℝ, Real.exp (-((c - y) * (c - y)) / (2 * l ^ 2)) = Real.sqrt (2 * Real.pi * l ^ 2) := by
  have h1 : (fun y : ℝ => Real.exp (-((c - y) * (c - y)) / (2 * l ^ 2))) = fun y => (fun t => Real.exp (-(1 / (2 * l ^ 2)) * t ^ 2)) (c - y) := by
    funext y
    simp only
    congr 1
    ring
  rw [h1, integral_sub_left_eq_self (fun t : ℝ => Real.exp (-(1 / (2 * l ^ 2)) * t ^ 2)) volume c, integral_gaussian]
  congr 1
  rw [div_div_eq_mul_div, div_one]
  ring

theorem integral_sqExp {d : ℕ} {l : ℝ} (hl : 0 < l) (x : Vec d) :
    ∫ y : Vec d, Real.exp (-sqDist x y / (2 * l ^ 2)) = (Real.sqrt (2 * Real.pi) * l) ^ d := by
  have h1 : ∀ y : Vec d, Real.exp (-sqDist x y / (2 * l ^ 2)) = ∏ i, Real.exp (-((x i - y i) * (x i - y i)) / (2 * l ^ 2)) := by
    intro y
    rw [← Real.exp_sum]
    congr 1
    rw [← Finset.sum_div, Finset.sum_neg_distrib]
    rfl
  simp only [h1]
  rw [integral_fintype_prod_volume_eq_prod (fun i (t : ℝ) => Real.exp (-((x i - t) * (x i - t)) / (2 * l ^ 2)))]
  simp only [integral_gauss]
  rw [Finset.prod_const, Finset.card_univ, Fintype.card_fin, Real.sqrt_mul (by positivity), Real.sqrt_sq hl.le]

theorem integrable_sqExp {d : ℕ} {l : ℝ} (hl : 0 < l) (x : Vec d) :
    Integrable fun y : Vec d => Real.exp (-sqDist x y / (2 * l ^ 2)) := by
  by_contra h
  have h1 := integral_undef h
  rw [integral_sqExp hl x] at h1
  have := Real.pi_pos
  have : (Real.sqrt (2 * Real.pi) * l) ^ d ≠ 0 := by positivity
  exact this h1

end Normalised

/-- The integral of the kernel with output scale `1 / (sqrt(2 pi) l)` over its second argument: a power of `sqrt(2 pi) l` that is one
less than the dimension. -/
theorem C80_mass {d : ℕ} {l : ℝ} (hl : 0 < l) (x : Vec (d + 1)) :
    ∫ y : Vec (d + 1), (kdeKernel l : KExpr (d + 1)).sem.compute x y = (Real.sqrt (2 * Real.pi) * l) ^ d := by
  have h1 : ∀ y, (kdeKernel l : KExpr (d + 1)).sem.compute x y = 1 / (Real.sqrt (2 * Real.pi) * l) * Real.exp (-sqDist x y / (2 * l ^ 2)) :=
    fun _ => rfl
  simp only [h1]
  rw [integral_const_mul, Normalised.integral_sqExp hl, pow_succ]
  have := Real.pi_pos
  field_simp

example := C80_mass (d := 1) (l := 2) two_pos ![0, 1]

/-- So it is a probability density in one dimension, and in more dimensions for one length scale only. -/
theorem C80_normalised_iff {d : ℕ} {l : ℝ} (hl : 0 < l) :
    (∀ x : Vec (d + 1), ∫ y : Vec (d + 1), (kdeKernel l : KExpr (d + 1)).sem.compute x y = 1) ↔ d = 0 ∨ 2 * Real.pi * l ^ 2 = 1 := by
  have hp := Real.pi_pos
  have hs : (Real.sqrt (2 * Real.pi) * l) ^ 2 = 2 * Real.pi * l ^ 2 := by
    rw [mul_pow, Real.sq_sqrt (by positivity)]
  simp only [C80_mass hl]
  constructor
  · intro h
    have h1 := h 0
    by_cases hd : d = 0
    · exact Or.inl hd
    · right
      have h2 := (pow_eq_one_iff_of_nonneg (by positivity) hd).1 h1
      rw [← hs, h2, one_pow]
  · rintro (rfl | h) x
    · simp
    · have h2 : Real.sqrt (2 * Real.pi) * l = 1 :=
        (pow_eq_one_iff_of_nonneg (by positivity) two_ne_zero).1 (by rw [hs, h])
      rw [h2, one_pow]

/-- In two dimensions with unit length scale it is not a density. -/
example : ¬ ∀ x : Vec 2, ∫ y : Vec 2, (kdeKernel 1 : KExpr 2).sem.compute x y = 1 := by
  rw [C80_normalised_iff one_pos]
  have := Real.two_le_pi
  rintro (h | h)
  · norm_num at h
  · nlinarith

/-- The kernel density estimate of `KernelDensityMatching` (the mean of the kernel over the data) has the same mass, whatever the data. -/
theorem C80_estimate_mass {d n : ℕ} {l : ℝ} (hl : 0 < l) (hn : 0 < n) (data : Fin n → Vec (d + 1)) :
    ∫ z : Vec (d + 1), (∑ j, (kdeKernel l : KExpr (d + 1)).sem.compute (data j) z) / n = (Real.sqrt (2 * Real.pi) * l) ^ d := by
  rw [integral_div, integral_finsetSum]
  · simp only [C80_mass hl]
    rw [sum_const, card_univ, Fintype.card_fin, nsmul_eq_mul]
    have : (n : ℝ) ≠ 0 := by exact_mod_cast hn.ne'
    field_simp
  · intro j _
    exact (Normalised.integrable_sqExp hl (data j)).const_mul _

example := C80_estimate_mass (d := 2) (n := 2) (l := 1 / 2) (by norm_num) (by norm_num) ![![0, 1, 2], ![3, 4, 5]]

/-- The score function does not depend on the mass: it is the gradient of the logarithm of the estimate that does integrate to one. -/
theorem C80_score {d n : ℕ} (big : ℝ) {l : ℝ} (hl : 0 < l) (hn : 0 < n) (data : Fin n → Vec d) (x : Vec d) :
    ∃ g, kdeScore big l data x = .ok g ∧ ∃ p : Vec d → ℝ, (∫ z, p z = 1) ∧
      (∀ z, p z = (∑ j, Real.exp (-(∑ i, (z i - data j i) ^ 2) / (2 * l ^ 2))) / (n * (Real.sqrt (2 * Real.pi) * l) ^ d)) ∧
      IsGrad (fun z => Real.log (p z)) g x := by
  have hp := Real.pi_pos
  have hn' : (0 : ℝ) < n := by exact_mod_cast hn
  have hc : 0 < 1 / (n * (Real.sqrt (2 * Real.pi) * l) ^ d) := by positivity
  obtain ⟨g, hg, hgrad⟩ := C42_kde_score big l hl hn data x _ hc
  refine ⟨g, hg, fun z => (∑ j, Real.exp (-(∑ i, (z i - data j i) ^ 2) / (2 * l ^ 2))) / (n * (Real.sqrt (2 * Real.pi) * l) ^ d), ?_,
    fun z => rfl, ?_⟩
  · have h1 : ∀ z : Vec d, ∀ j, Real.exp (-(∑ i, (z i - data j i) ^ 2) / (2 * l ^ 2)) = Real.exp (-sqDist (data j) z / (2 * l ^ 2)) := by
      intro z j
      congr 3
      unfold sqDist
      refine sum_congr rfl fun i _ => ?_
      ring
    simp only [h1]
    rw [integral_div, integral_finsetSum]
    · simp only [Normalised.integral_sqExp hl]
      rw [sum_const, card_univ, Fintype.card_fin, nsmul_eq_mul]
      exact div_self (by positivity)
    · intro j _
      exact Normalised.integrable_sqExp hl (data j)
  · refine hgrad.congr (fun z => ?_) fun i => rfl
    congr 1
    ring

example := C80_score (d := 2) (n := 2) 1000 (l := 1) one_pos (by norm_num) ![![0, 1], ![2, 3]] ![1, 1]

/-- Comparisons of coresets by MMD in the examples do not depend on the output scale: it multiplies every MMD by its square root. -/
theorem C80_comparison {d n m m' : ℕ} [NeZero n] (big : ℝ) {l : ℝ} (hl : 0 < l) (data : Data n (Vec d) ℝ) (a : Data m (Vec d) ℝ) (b : Data m' (Vec d) ℝ)
    (bs : PyTree (Option ℤ)) {va vb : ℝ} (ha : mmdCompute big (KExpr.squaredExponential l 1 : KExpr d).sem.compute data a bs = .ok va)
    (hb : mmdCompute big (KExpr.squaredExponential l 1 : KExpr d).sem.compute data b bs = .ok vb) :
    ∃ va' vb', mmdCompute big (kdeKernel l : KExpr d).sem.compute data a bs = .ok va' ∧
      mmdCompute big (kdeKernel l : KExpr d).sem.compute data b bs = .ok vb' ∧
      va' ^ 2 * (Real.sqrt (2 * Real.pi) * l) = va ^ 2 ∧ (va' < vb' ↔ va < vb) := by
  have hp := Real.pi_pos
  have hs : 0 < 1 / (Real.sqrt (2 * Real.pi) * l) := by positivity
  have hk : ∀ x y : Vec d, (kdeKernel l : KExpr d).sem.compute x y =
      1 / (Real.sqrt (2 * Real.pi) * l) * (KExpr.squaredExponential l 1 : KExpr d).sem.compute x y := by
    intro x y
    show _ * Real.exp _ = _ * (1 * Real.exp _)
    rw [one_mul]
  have h1 := C68_mmd hs.le big _ _ data.data data.weights a.data a.weights data.data a.data
    (fun i j => hk _ _) (fun i j => hk _ _) (fun i j => hk _ _) (fun i j => hk _ _) bs
  have h2 := C68_mmd hs.le big _ _ data.data data.weights b.data b.weights data.data b.data
    (fun i j => hk _ _) (fun i j => hk _ _) (fun i j => hk _ _) (fun i j => hk _ _) bs
  rw [show (⟨data.data, data.weights⟩ : Data n (Vec d) ℝ) = data from rfl, show (⟨a.data, a.weights⟩ : Data m (Vec d) ℝ) = a from rfl, ha] at h1
  rw [show (⟨data.data, data.weights⟩ : Data n (Vec d) ℝ) = data from rfl, show (⟨b.data, b.weights⟩ : Data m' (Vec d) ℝ) = b from rfl, hb] at h2
  refine ⟨_, _, h1, h2, ?_, ?_⟩
  · rw [mul_pow, Real.sq_sqrt hs.le]
    field_simp
  · exact mul_lt_mul_iff_right₀ (Real.sqrt_pos.2 hs)

example := C80_comparison (d := 2) (n := 2) (m := 1) (m' := 1) 1000 (l := 2) two_pos ⟨![![0, 1], ![2, 3]], ![1, 1]⟩ ⟨![![0, 1]], ![1]⟩
  ⟨![![2, 2]], ![1]⟩ (.leaf none)
  (C07_compute 1000 (KExpr.squaredExponential 2 1 : KExpr 2).sem.compute (by norm_num) (by norm_num) _ _ (by norm_num [Fin.sum_univ_two]) (by norm_num) (.leaf none) (.inl rfl))
  (C07_compute 1000 (KExpr.squaredExponential 2 1 : KExpr 2).sem.compute (by norm_num) (by norm_num) _ _ (by norm_num [Fin.sum_univ_two]) (by norm_num) (.leaf none) (.inl rfl))

end Coreax
