import Verif.Props.SteinKernel
import Verif.Props.Strict
import Mathlib.Topology.Algebra.Module.Cardinality

/-!
# Stein kernels that are strictly positive definite

Gaussian base: changing the score at one further point shows that a combination of norm zero annihilates `∂k + k s` everywhere; growth along the longest of the points does the rest.
Inverse powers: mixtures of Gaussians.
-/

set_option linter.unusedSectionVars false

namespace Coreax.SteinStrict

open Spec Filter Topology MeasureTheory Set

variable {d : ℕ}

/-- If the Stein kernels of all scores are positive semi-definite, a combination of norm zero for one score annihilates `∂k + k s` away from the points. -/
theorem annihilates (k : KSem d) (hk : ∀ score, IsPSD (steinCompute k score)) (score : Vec d → Vec d) {n : ℕ} (x : Fin n → Vec d) (c : Fin n → ℝ)
    (h : ∑ i, ∑ j, c i * c j * steinCompute k score (x i) (x j) = 0) (y : Vec d) (hy : ∀ i, x i ≠ y) (l : Fin d) :
    ∑ i, c i * (k.gradX (x i) y l + k.compute (x i) y * score (x i) l) = 0 := by
  classical
  have key : ∀ M : ℝ, ∑ i, c i * (k.div (x i) y + vdot (k.gradY (x i) y) (score (x i))) + M * ∑ i, c i * (k.gradX (x i) y l + k.compute (x i) y * score (x i) l) = 0 := by
    intro M
    have h' : ∑ i, ∑ j, c i * c j * steinCompute k (Function.update score y (Pi.single l M)) (x i) (x j) = 0 := by
      refine Eq.trans (Finset.sum_congr rfl fun i _ => Finset.sum_congr rfl fun j _ => ?_) h
      simp only [steinCompute, Function.update_of_ne (hy _)]
    have := (hk _).eval_zero x c h' y
    refine Eq.trans ?_ this
    rw [Finset.mul_sum, ← Finset.sum_add_distrib]
    refine Finset.sum_congr rfl fun i _ => ?_
    have e : ∀ v : Vec d, vdot v (Pi.single l M) = v l * M := fun v => by
      unfold vdot
      rw [Finset.sum_eq_single l (fun b _ hb => by rw [Pi.single_eq_of_ne hb, mul_zero]) fun hb => absurd (Finset.mem_univ l) hb, Pi.single_eq_same]
    simp only [steinCompute, Function.update_self, Function.update_of_ne (hy _), e]
    ring
  have h0 := key 0
  have h1 := key 1
  linarith

/-- The Gaussian with rate `t`. -/
noncomputable def gaussSem (t : ℝ) : KSem d :=
  { compute := fun x y => Real.exp (-(t * sqDist x y))
    gradX := fun x y i => -(2 * t * (x i - y i) * Real.exp (-(t * sqDist x y)))
    gradY := fun x y i => 2 * t * (x i - y i) * Real.exp (-(t * sqDist x y))
    div := fun x y => (2 * t * d - 4 * t ^ 2 * sqDist x y) * Real.exp (-(t * sqDist x y)) }

theorem stein_squaredExponential (l s : ℝ) (hl : l ≠ 0) (score : Vec d → Vec d) (x y : Vec d) :
    steinCompute (squaredExponentialSem l s) score x y = s * steinCompute (gaussSem (1 / (2 * l ^ 2))) score x y := by
  have e : Real.exp (-sqDist x y / (2 * l ^ 2)) = Real.exp (-(1 / (2 * l ^ 2) * sqDist x y)) := by congr 1; ring
  simp only [steinCompute, squaredExponentialSem, gaussSem, vdot, e, Pi.neg_apply, mul_add, Finset.mul_sum]
  congr 1
  · congr 1
    · congr 1
      · field_simp; ring
      · exact Finset.sum_congr rfl fun i _ => by field_simp
    · exact Finset.sum_congr rfl fun i _ => by field_simp
  · exact Finset.sum_congr rfl fun i _ => by ring

theorem gauss_psd {t : ℝ} (ht : 0 < t) (score : Vec d → Vec d) : IsPSD (steinCompute (gaussSem t) score) := by
  have hl : 0 < 1 / Real.sqrt (2 * t) := by positivity
  have hc : (KExpr.squaredExponential (1 / Real.sqrt (2 * t)) 1 : KExpr d).check = .ok () := by
    simp only [KExpr.check, checkPos, not_le.2 hl, not_le.2 one_pos, if_false]
    rfl
  refine (C35_psd (.squaredExponential (1 / Real.sqrt (2 * t)) 1) score hc trivial trivial).congr fun x y => ?_
  have := stein_squaredExponential (1 / Real.sqrt (2 * t)) 1 hl.ne' score x y
  have e : 1 / (2 * (1 / Real.sqrt (2 * t)) ^ 2) = t := by
    rw [div_pow, Real.sq_sqrt (by positivity)]; field_simp
  rw [e, one_mul] at this
  exact this.symm

theorem tendsto_affine_mul_exp (α β γ κ : ℝ) (hκ : 0 < κ) : Tendsto (fun r : ℝ => (α * r + β) * Real.exp (γ - κ * r)) atTop (𝓝 0) := by
  have h1 := tendsto_rpow_mul_exp_neg_mul_atTop_nhds_zero 1 κ hκ
  have h0 := tendsto_rpow_mul_exp_neg_mul_atTop_nhds_zero 0 κ hκ
  have := ((h1.const_mul α).add (h0.const_mul β)).const_mul (Real.exp γ)
  simp only [mul_zero, add_zero] at this
  refine this.congr fun r => ?_
  rw [Real.rpow_one, Real.rpow_zero, sub_eq_add_neg, Real.exp_add, neg_mul]
  ring

theorem vdot_smul_right (a b : Vec d) (r : ℝ) : vdot a (r • b) = r * vdot a b := by
  simp only [vdot, Finset.mul_sum, Pi.smul_apply, smul_eq_mul]
  exact Finset.sum_congr rfl fun i _ => by ring

theorem sqDist_sub (a b y : Vec d) : sqDist a y - sqDist b y = vdot a a - vdot b b - 2 * (vdot a y - vdot b y) := by
  simp only [sqDist, vdot, Finset.mul_sum, ← Finset.sum_sub_distrib]
  exact Finset.sum_congr rfl fun i _ => by ring

theorem vdot_lt (a b : Vec d) (hab : a ≠ b) (h : vdot a a ≤ vdot b b) : vdot a b < vdot b b := by
  have h1 : 0 < sqDist a b := lt_of_le_of_ne (sqDist_nonneg a b) fun e => hab (by
    funext i
    have := (Finset.sum_eq_zero_iff_of_nonneg fun i _ => mul_self_nonneg (a i - b i)).1 e.symm i (Finset.mem_univ i)
    exact sub_eq_zero.1 (mul_self_eq_zero.1 this))
  have h2 : sqDist a b = vdot a a + vdot b b - 2 * vdot a b := by
    simp only [sqDist, vdot, Finset.mul_sum, ← Finset.sum_sub_distrib, ← Finset.sum_add_distrib]
    exact Finset.sum_congr rfl fun i _ => by ring
  linarith

/-- Independence of `(y_l - b_i) exp (-t |x_i - y|²)` for distinct points. -/
theorem independent {t : ℝ} (ht : 0 < t) {n : ℕ} (x : Fin n → Vec d) (hx : Function.Injective x) (c b : Fin n → ℝ) (l : Fin d)
    (h : ∀ y : Vec d, ∑ i, c i * (2 * t * y l + b i) * Real.exp (-(t * sqDist (x i) y)) = 0) : ∀ i, c i = 0 := by
  classical
  by_contra hcon
  push Not at hcon
  obtain ⟨i0, hi0, hmax⟩ := Finset.exists_max_image (Finset.univ.filter fun i => c i ≠ 0) (fun i => vdot (x i) (x i))
    (by obtain ⟨i, hi⟩ := hcon; exact ⟨i, by simpa using hi⟩)
  have hc0 : c i0 ≠ 0 := by simpa using hi0
  -- along `r x_{i0} + w e_l`
  have hlim : ∀ w : ℝ, Tendsto (fun r : ℝ => 2 * t * (r * x i0 l + w) + b i0) atTop (𝓝 0) := by
    intro w
    have hsum : ∀ r : ℝ, 2 * t * (r * x i0 l + w) + b i0 = -(∑ i ∈ Finset.univ.erase i0, c i / c i0 * ((2 * t * x i0 l * r + (2 * t * w + b i)) *
        Real.exp (t * (vdot (x i0) (x i0) - vdot (x i) (x i) + 2 * w * (x i l - x i0 l)) - 2 * t * (vdot (x i0) (x i0) - vdot (x i) (x i0)) * r))) := by
      intro r
      have hy := h (r • x i0 + Pi.single l w)
      have e : ∀ v : Vec d, vdot v (Pi.single l w) = v l * w := fun v => by
        unfold vdot
        rw [Finset.sum_eq_single l (fun b _ hb => by rw [Pi.single_eq_of_ne hb, mul_zero]) fun hb => absurd (Finset.mem_univ l) hb, Pi.single_eq_same]
      rw [← Finset.add_sum_erase _ _ (Finset.mem_univ i0)] at hy
      have hE : Real.exp (-(t * sqDist (x i0) (r • x i0 + Pi.single l w))) ≠ 0 := (Real.exp_pos _).ne'
      have hterm : ∀ i, c i / c i0 * ((2 * t * x i0 l * r + (2 * t * w + b i)) *
          Real.exp (t * (vdot (x i0) (x i0) - vdot (x i) (x i) + 2 * w * (x i l - x i0 l)) - 2 * t * (vdot (x i0) (x i0) - vdot (x i) (x i0)) * r))
          = (c i * (2 * t * (r • x i0 + Pi.single l w : Vec d) l + b i) * Real.exp (-(t * sqDist (x i) (r • x i0 + Pi.single l w))))
            / (c i0 * Real.exp (-(t * sqDist (x i0) (r • x i0 + Pi.single l w)))) := by
        intro i
        have : t * (vdot (x i0) (x i0) - vdot (x i) (x i) + 2 * w * (x i l - x i0 l)) - 2 * t * (vdot (x i0) (x i0) - vdot (x i) (x i0)) * r
            = -(t * sqDist (x i) (r • x i0 + Pi.single l w)) - -(t * sqDist (x i0) (r • x i0 + Pi.single l w)) := by
          have := sqDist_sub (x i) (x i0) (r • x i0 + Pi.single l w)
          rw [Strict.vdot_add_right, Strict.vdot_add_right, vdot_smul_right, vdot_smul_right, e, e] at this
          linear_combination t * this
        rw [this, Real.exp_sub]
        simp only [Pi.add_apply, Pi.smul_apply, smul_eq_mul, Pi.single_eq_same]
        field_simp
        ring
      rw [Finset.sum_congr rfl fun i _ => hterm i, ← Finset.sum_div, eq_neg_iff_add_eq_zero, ← mul_left_inj' (mul_ne_zero hc0 hE), zero_mul, add_mul,
        div_mul_cancel₀ _ (mul_ne_zero hc0 hE)]
      refine Eq.trans ?_ hy
      simp only [Pi.add_apply, Pi.smul_apply, smul_eq_mul, Pi.single_eq_same]
      ring
    have : Tendsto (fun r : ℝ => -(∑ i ∈ Finset.univ.erase i0, c i / c i0 * ((2 * t * x i0 l * r + (2 * t * w + b i)) *
        Real.exp (t * (vdot (x i0) (x i0) - vdot (x i) (x i) + 2 * w * (x i l - x i0 l)) - 2 * t * (vdot (x i0) (x i0) - vdot (x i) (x i0)) * r)))) atTop
        (𝓝 (-(∑ i ∈ Finset.univ.erase i0, (0 : ℝ)))) := by
      refine (tendsto_finsetSum _ fun i hi => ?_).neg
      by_cases hci : c i = 0
      · simp only [hci, zero_div, zero_mul]; exact tendsto_const_nhds
      · have := vdot_lt (x i) (x i0) (hx.ne (Finset.ne_of_mem_erase hi)) (hmax i (by simpa using hci))
        have := (tendsto_affine_mul_exp (2 * t * x i0 l) (2 * t * w + b i) (t * (vdot (x i0) (x i0) - vdot (x i) (x i) + 2 * w * (x i l - x i0 l)))
          (2 * t * (vdot (x i0) (x i0) - vdot (x i) (x i0))) (mul_pos (by linarith) (by linarith))).const_mul (c i / c i0)
        rwa [mul_zero] at this
    rw [Finset.sum_const_zero, neg_zero] at this
    exact this.congr fun r => (hsum r).symm
  have h2 := (hlim 1).sub (hlim 0)
  have : Tendsto (fun _ : ℝ => 2 * t) atTop (𝓝 (0 - 0)) := h2.congr fun r => by ring
  have := tendsto_nhds_unique this tendsto_const_nhds
  linarith

/-- Gaussian base: the Stein kernel of every score is strictly positive definite. -/
theorem gauss_strict {t : ℝ} (ht : 0 < t) (hd : 0 < d) (score : Vec d → Vec d) : IsStrict (steinCompute (gaussSem t) score) := by
  refine ⟨gauss_psd ht score, fun n x c hx h => ?_⟩
  let l : Fin d := ⟨0, hd⟩
  have : Nonempty (Fin d) := ⟨l⟩
  refine independent ht x hx c (fun i => score (x i) l - 2 * t * x i l) l fun y => ?_
  have hcont : Continuous fun y : Vec d => ∑ i, c i * (2 * t * y l + (score (x i) l - 2 * t * x i l)) * Real.exp (-(t * sqDist (x i) y)) := by
    unfold sqDist
    fun_prop
  have hdense : Dense (Set.range x)ᶜ := (Set.finite_range x).countable.dense_compl ℝ
  refine congrFun (hcont.ext_on hdense continuous_const fun y hy => ?_) y
  have := annihilates (gaussSem t) (fun s => gauss_psd ht s) score x c h y (fun i e => hy ⟨i, e⟩) l
  refine Eq.trans (Finset.sum_congr rfl fun i _ => ?_) this
  simp only [gaussSem]
  ring

theorem stein_gauss (t : ℝ) (score : Vec d → Vec d) (x y : Vec d) :
    steinCompute (gaussSem t) score x y = (vdot (score x) (score y) + t * (2 * (d + vdot (x - y) (score x) - vdot (x - y) (score y))) + t ^ 2 * (-4 * sqDist x y))
      * Real.exp (-(t * sqDist x y)) := by
  have h1 : vdot (fun i => -(2 * t * (x i - y i) * Real.exp (-(t * sqDist x y)))) (score y) = -(2 * t * vdot (x - y) (score y) * Real.exp (-(t * sqDist x y))) := by
    simp only [vdot, Pi.sub_apply, Finset.mul_sum, Finset.sum_mul, ← Finset.sum_neg_distrib]
    exact Finset.sum_congr rfl fun i _ => by ring
  have h2 : vdot (fun i => 2 * t * (x i - y i) * Real.exp (-(t * sqDist x y))) (score x) = 2 * t * vdot (x - y) (score x) * Real.exp (-(t * sqDist x y)) := by
    simp only [vdot, Pi.sub_apply, Finset.mul_sum, Finset.sum_mul]
    exact Finset.sum_congr rfl fun i _ => by ring
  simp only [steinCompute, gaussSem, h1, h2]
  ring

/-- The value of the Stein kernel with base `(1 + ρ q)^(-p)`. -/
noncomputable def invValue (ρ p : ℝ) (score : Vec d → Vec d) (x y : Vec d) : ℝ :=
  vdot (score x) (score y) * (1 + ρ * sqDist x y) ^ (-p)
    + ρ * (2 * (d + vdot (x - y) (score x) - vdot (x - y) (score y))) * (p * (1 + ρ * sqDist x y) ^ (-(p + 1)))
    + ρ ^ 2 * (-4 * sqDist x y) * (p * (p + 1) * (1 + ρ * sqDist x y) ^ (-(p + 2)))

theorem gamma_integral {p B : ℝ} (hp : 0 < p) (hB : 0 < B) : IntegrableOn (fun t : ℝ => t ^ (p - 1) * Real.exp (-(B * t))) (Ioi 0) ∧
    ∫ t in Ioi (0 : ℝ), t ^ (p - 1) * Real.exp (-(B * t)) = Real.Gamma p * B ^ (-p) := by
  constructor
  · have := integrableOn_rpow_mul_exp_neg_mul_rpow (p := 1) (s := p - 1) (b := B) (by linarith) zero_lt_one hB
    simpa only [Real.rpow_one, neg_mul] using this
  · rw [Real.integral_rpow_mul_exp_neg_mul_Ioi hp hB, Real.rpow_neg hB.le, one_div, Real.inv_rpow hB.le, mul_comm]

theorem integral_three {Y : Type*} [MeasurableSpace Y] {ν : Measure Y} {f g h : Y → ℝ} (hf : Integrable f ν) (hg : Integrable g ν)
    (hh : Integrable h ν) {α β γ : ℝ} : ∫ y, (α * f y + β * g y + γ * h y) ∂ν = α * ∫ y, f y ∂ν + β * ∫ y, g y ∂ν + γ * ∫ y, h y ∂ν := by
  have h1 : Integrable (fun y => α * f y + β * g y) ν := (hf.const_mul α).add (hg.const_mul β)
  rw [integral_add h1 (hh.const_mul γ), integral_add (hf.const_mul α) (hg.const_mul β), integral_const_mul, integral_const_mul, integral_const_mul]

theorem inv_strict {ρ p : ℝ} (hρ : 0 < ρ) (hp : 0 < p) (hd : 0 < d) (score : Vec d → Vec d) : IsPSD (invValue ρ p score) → IsStrict (invValue ρ p score) := by
  refine fun hpsd => ⟨hpsd, fun n x v hx hv => ?_⟩
  have hB : ∀ a b : Vec d, 0 < 1 + ρ * sqDist a b := fun a b => by have := sqDist_nonneg a b; positivity
  have split : ∀ (a b : Vec d) (t : ℝ), t ∈ Ioi (0 : ℝ) → t ^ (p - 1) * Real.exp (-t) * steinCompute (gaussSem (ρ * t)) score a b
      = vdot (score a) (score b) * (t ^ (p - 1) * Real.exp (-((1 + ρ * sqDist a b) * t)))
        + ρ * (2 * (d + vdot (a - b) (score a) - vdot (a - b) (score b))) * (t ^ (p + 1 - 1) * Real.exp (-((1 + ρ * sqDist a b) * t)))
        + ρ ^ 2 * (-4 * sqDist a b) * (t ^ (p + 2 - 1) * Real.exp (-((1 + ρ * sqDist a b) * t))) := by
    intro a b t ht
    have ht' : (0 : ℝ) < t := ht
    have e1 : t ^ (p + 1 - 1) = t ^ (p - 1) * t := by
      rw [show p + 1 - 1 = p - 1 + 1 by ring, Real.rpow_add_one ht'.ne']
    have e2 : t ^ (p + 2 - 1) = t ^ (p - 1) * t ^ 2 := by
      rw [show p + 2 - 1 = p - 1 + 1 + 1 by ring, Real.rpow_add_one ht'.ne', Real.rpow_add_one ht'.ne']; ring
    have e3 : Real.exp (-((1 + ρ * sqDist a b) * t)) = Real.exp (-t) * Real.exp (-(ρ * t * sqDist a b)) := by
      rw [← Real.exp_add]; congr 1; ring
    rw [stein_gauss, e1, e2, e3]
    ring
  have hi0 := fun a b : Vec d => (gamma_integral hp (hB a b))
  have hi1 := fun a b : Vec d => (gamma_integral (p := p + 1) (by linarith) (hB a b))
  have hi2 := fun a b : Vec d => (gamma_integral (p := p + 2) (by linarith) (hB a b))
  have hint : ∀ a b : Vec d, IntegrableOn (fun t => t ^ (p - 1) * Real.exp (-t) * steinCompute (gaussSem (ρ * t)) score a b) (Ioi 0) := by
    intro a b
    refine IntegrableOn.congr_fun ?_ (fun t ht => (split a b t ht).symm) measurableSet_Ioi
    exact (((hi0 a b).1.const_mul _).add ((hi1 a b).1.const_mul _)).add ((hi2 a b).1.const_mul _)
  have hG : Real.Gamma p ≠ 0 := (Real.Gamma_pos_of_pos hp).ne'
  have hval : ∀ a b : Vec d, ∫ t in Ioi (0 : ℝ), t ^ (p - 1) * Real.exp (-t) * steinCompute (gaussSem (ρ * t)) score a b = Real.Gamma p * invValue ρ p score a b := by
    intro a b
    rw [setIntegral_congr_fun measurableSet_Ioi (fun t ht => split a b t ht)]
    rw [integral_three (hi0 a b).1 (hi1 a b).1 (hi2 a b).1, (hi0 a b).2, (hi1 a b).2, (hi2 a b).2]
    have g1 : Real.Gamma (p + 1) = p * Real.Gamma p := Real.Gamma_add_one hp.ne'
    have g2 : Real.Gamma (p + 2) = (p + 1) * (p * Real.Gamma p) := by
      rw [show p + 2 = p + 1 + 1 by ring, Real.Gamma_add_one (by positivity), g1]
    rw [g1, g2, invValue]
    ring
  have hst : ∀ t : ℝ, 0 < t → IsStrict fun a b : Vec d => t ^ (p - 1) * Real.exp (-t) * steinCompute (gaussSem (ρ * t)) score a b := fun t ht =>
    (gauss_strict (mul_pos hρ ht) hd score).smul (by positivity)
  have h0 : ∑ i, ∑ j, v i * v j * ∫ t in Ioi (0 : ℝ), t ^ (p - 1) * Real.exp (-t) * steinCompute (gaussSem (ρ * t)) score (x i) (x j) = 0 := by
    refine Eq.trans ?_ ((congrArg (Real.Gamma p * ·) hv).trans (mul_zero _))
    rw [Finset.mul_sum]
    refine Finset.sum_congr rfl fun i _ => ?_
    rw [Finset.mul_sum]
    refine Finset.sum_congr rfl fun j _ => ?_
    rw [hval]; ring
  have h1 := form_integral (volume.restrict (Ioi (0 : ℝ))) (k := fun t a b => t ^ (p - 1) * Real.exp (-t) * steinCompute (gaussSem (ρ * t)) score a b) hint
    ((ae_restrict_iff' measurableSet_Ioi).2 (ae_of_all _ fun t ht => (hst t ht).1)) x v h0
  have h2 := h1.and (ae_restrict_mem measurableSet_Ioi)
  have : (volume.restrict (Ioi (0 : ℝ))) ≠ 0 := by
    rw [Ne, Measure.restrict_eq_zero]
    simp
  have : (ae (volume.restrict (Ioi (0 : ℝ)))).NeBot := ae_neBot.2 this
  obtain ⟨t, ht, ht0⟩ := h2.exists
  exact (hst t ht0).2 n x v hx ht

theorem stein_rationalQuadratic (l s a : ℝ) (hl : l ≠ 0) (ha : a ≠ 0) (score : Vec d → Vec d) (x y : Vec d) :
    steinCompute (rationalQuadraticSem l s a) score x y = s * invValue (1 / (2 * a * l ^ 2)) a score x y := by
  have e0 : 1 + sqDist x y / (2 * (a * l ^ 2)) = 1 + 1 / (2 * a * l ^ 2) * sqDist x y := by ring
  have e1 : 1 + sqDist x y / (2 * a * l ^ 2) = 1 + 1 / (2 * a * l ^ 2) * sqDist x y := by ring
  simp only [steinCompute, rationalQuadraticSem, invValue, e0, e1]
  generalize 1 + 1 / (2 * a * l ^ 2) * sqDist x y = B
  rw [show -a - 1 = -(a + 1) by ring, show a + 1 + 1 = a + 2 by ring]
  have h1 : vdot (-fun i => s * (x i - y i) / l ^ 2 * B ^ (-(a + 1))) (score y) = -(s / l ^ 2 * B ^ (-(a + 1)) * vdot (x - y) (score y)) := by
    simp only [vdot, Pi.sub_apply, Pi.neg_apply, Finset.mul_sum, ← Finset.sum_neg_distrib]
    exact Finset.sum_congr rfl fun i _ => by ring
  have h2 : vdot (fun i => s * (x i - y i) / l ^ 2 * B ^ (-(a + 1))) (score x) = s / l ^ 2 * B ^ (-(a + 1)) * vdot (x - y) (score x) := by
    simp only [vdot, Pi.sub_apply, Finset.mul_sum]
    exact Finset.sum_congr rfl fun i _ => by ring
  rw [h1, h2]
  field_simp
  ring

theorem stein_pcimq (l s : ℝ) (hl : l ≠ 0) (hs : s ≠ 0) (score : Vec d → Vec d) (x y : Vec d) :
    steinCompute (pcimqSem l s) score x y = s * invValue (1 / (2 * l ^ 2)) (1 / 2) score x y := by
  have e1 : 1 + sqDist x y / (2 * l ^ 2) = 1 + 1 / (2 * l ^ 2) * sqDist x y := by ring
  have hB : 0 < 1 + 1 / (2 * l ^ 2) * sqDist x y := by have := sqDist_nonneg x y; positivity
  simp only [steinCompute, pcimqSem, invValue, e1]
  generalize 1 + 1 / (2 * l ^ 2) * sqDist x y = B at hB
  have r0 : B ^ (-(1 / 2) : ℝ) = (Real.sqrt B)⁻¹ := by rw [Real.rpow_neg hB.le, Real.sqrt_eq_rpow]
  have r1 : B ^ (-(1 / 2 + 1) : ℝ) = (Real.sqrt B)⁻¹ ^ 3 := by
    rw [← r0, ← Real.rpow_natCast, ← Real.rpow_mul hB.le]; norm_num
  have r2 : B ^ (-(1 / 2 + 2) : ℝ) = (Real.sqrt B)⁻¹ ^ 5 := by
    rw [← r0, ← Real.rpow_natCast, ← Real.rpow_mul hB.le]; norm_num
  have e2 : s / Real.sqrt B / s = (Real.sqrt B)⁻¹ := by field_simp
  rw [r0, r1, r2, e2, div_eq_mul_inv s (Real.sqrt B)]
  generalize (Real.sqrt B)⁻¹ = b
  have h1 : vdot (-fun i => s * (x i - y i) / (2 * l ^ 2) * b ^ 3) (score y) = -(s / (2 * l ^ 2) * b ^ 3 * vdot (x - y) (score y)) := by
    simp only [vdot, Pi.sub_apply, Pi.neg_apply, Finset.mul_sum, ← Finset.sum_neg_distrib]
    exact Finset.sum_congr rfl fun i _ => by ring
  have h2 : vdot (fun i => s * (x i - y i) / (2 * l ^ 2) * b ^ 3) (score x) = s / (2 * l ^ 2) * b ^ 3 * vdot (x - y) (score x) := by
    simp only [vdot, Pi.sub_apply, Finset.mul_sum]
    exact Finset.sum_congr rfl fun i _ => by ring
  rw [h1, h2]
  field_simp
  ring

end Coreax.SteinStrict
