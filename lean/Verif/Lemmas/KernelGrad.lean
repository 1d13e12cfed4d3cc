import Verif.Model.Kernel
import Verif.Lemmas.Calculus
import Mathlib.Analysis.SpecialFunctions.ExpDeriv
import Mathlib.Analysis.SpecialFunctions.Sqrt
import Mathlib.Analysis.SpecialFunctions.Pow.Deriv
import Mathlib.Analysis.SpecialFunctions.Trigonometric.Deriv
import Mathlib.Analysis.Calculus.Deriv.Inv
import Mathlib.Analysis.Calculus.Deriv.ZPow
import Mathlib.Analysis.Calculus.Deriv.Abs
import Mathlib.Analysis.Calculus.ContDiff.Operations
import Mathlib.Analysis.SpecialFunctions.ExpDeriv

/-!
# Gradients and divergences of the individual kernels
-/

set_option linter.unusedSectionVars false

namespace Coreax

open Spec

variable {d : ℕ} {x y : Vec d}

/-- The methods of a kernel are right at `(x, y)`: both gradients. -/
structure GradOk (k : KSem d) (x y : Vec d) : Prop where
  left : IsGrad (fun x' => k.compute x' y) (k.gradX x y) x
  right : IsGrad (fun y' => k.compute x y') (k.gradY x y) y

theorem sqDist_comm (x y : Vec d) : sqDist x y = sqDist y x :=
  Finset.sum_congr rfl fun i _ => by ring

theorem nrm_eq (x y : Vec d) : nrm x y = Real.sqrt (sqDist x y) := by
  rw [nrm, sqDist]
  congr 1
  exact Finset.sum_congr rfl fun i _ => by ring

theorem sqDist_nonneg (x y : Vec d) : 0 ≤ sqDist x y :=
  Finset.sum_nonneg fun i _ => mul_self_nonneg _

theorem sqDist_pos (h : x ≠ y) : 0 < sqDist x y := by
  rcases (sqDist_nonneg x y).lt_or_eq with h0 | h0
  · exact h0
  · exfalso
    apply h
    ext i
    have := (Finset.sum_eq_zero_iff_of_nonneg (fun i _ => mul_self_nonneg (x i - y i))).1 h0.symm i (Finset.mem_univ i)
    have := mul_self_eq_zero.1 this
    linarith

theorem nrm_pos (h : x ≠ y) : 0 < nrm x y := by
  rw [nrm_eq]
  exact Real.sqrt_pos.2 (sqDist_pos h)

theorem nrm_sq (x y : Vec d) : nrm x y ^ 2 = sqDist x y := by
  rw [nrm_eq, Real.sq_sqrt (sqDist_nonneg x y)]

theorem nrm_comm (x y : Vec d) : nrm x y = nrm y x := by rw [nrm_eq, nrm_eq, sqDist_comm]

theorem vdot_comm (x y : Vec d) : vdot x y = vdot y x := Finset.sum_congr rfl fun i _ => mul_comm _ _

/-- Gradients of a kernel that is a function of the squared distance. -/
theorem gradOk_radial {k : KSem d} {φ : ℝ → ℝ} {φ' : ℝ} (hc : ∀ x y, k.compute x y = φ (sqDist x y))
    (hφ : HasDerivAt φ φ' (sqDist x y)) (hx : ∀ i, k.gradX x y i = φ' * (2 * (x i - y i)))
    (hy : ∀ i, k.gradY x y i = -(φ' * (2 * (x i - y i)))) : GradOk k x y where
  left := (isGrad_radial y hφ).congr (fun z => hc z y) hx
  right := by
    rw [sqDist_comm] at hφ
    refine (isGrad_radial x hφ).congr (fun z => by rw [hc, sqDist_comm]; rfl) (fun i => ?_)
    rw [hy]
    ring

theorem isDiv_radial' {h : ℝ → ℝ} {h' : ℝ} (hh : HasDerivAt h h' (sqDist x y)) :
    IsDiv (fun x i => h (sqDist x y) * (x i - y i)) (2 * sqDist x y * h' + d * h (sqDist x y)) x :=
  isDiv_radial y hh

/-- Divergence of a kernel whose y-gradient is radial. -/
theorem isDiv_of_radial {k : KSem d} {h : ℝ → ℝ} {h' : ℝ} (hg : ∀ z i, k.gradY z y i = h (sqDist z y) * (z i - y i))
    (hh : HasDerivAt h h' (sqDist x y)) (hd : k.div x y = 2 * sqDist x y * h' + d * h (sqDist x y)) :
    IsDiv (fun x' => k.gradY x' y) (k.div x y) x :=
  (isDiv_radial y hh).congr hg hd

/-! ### Constant, linear and polynomial kernels -/

theorem gradOk_const (c : ℝ) : GradOk (constSem c : KSem d) x y :=
  ⟨isGrad_const c, isGrad_const c⟩

theorem isDiv_const (c : ℝ) : IsDiv (fun x' => (constSem c : KSem d).gradY x' y) ((constSem c : KSem d).div x y) x :=
  ⟨fun _ _ => 0, fun _ => isGrad_const 0, by simp [constSem]⟩

theorem isGrad_vdot_left (x y : Vec d) : IsGrad (fun x' => vdot x' y) y x := isGrad_dot y

theorem isGrad_vdot_right (x y : Vec d) : IsGrad (fun y' => vdot x y') x y :=
  (isGrad_dot x).congr (fun z => vdot_comm _ _) (fun _ => rfl)

theorem gradOk_linear (s c : ℝ) : GradOk (linearSem s c : KSem d) x y :=
  ⟨(((isGrad_vdot_left x y).const_mul s).add (isGrad_const c)).congr (fun _ => rfl) (fun i => by simp [linearSem]),
   (((isGrad_vdot_right x y).const_mul s).add (isGrad_const c)).congr (fun _ => rfl) (fun i => by simp [linearSem])⟩

theorem isDiv_linear (s c : ℝ) :
    IsDiv (fun x' => (linearSem s c : KSem d).gradY x' y) ((linearSem s c : KSem d).div x y) x := by
  refine ⟨_, fun i => (isGrad_coord i).const_mul s, ?_⟩
  simp [linearSem, mul_comm]

theorem hasDerivAt_zpow_of_nonneg {n : ℤ} (hn : 0 ≤ n) (t : ℝ) : HasDerivAt (fun t : ℝ => t ^ n) (n * t ^ (n - 1)) t :=
  hasDerivAt_zpow n t (Or.inr hn)

theorem gradOk_polynomial (s c : ℝ) {n : ℤ} (hn : 2 ≤ n) : GradOk (polynomialSem s c n : KSem d) x y := by
  have hb : ∀ t : ℝ, HasDerivAt (fun t : ℝ => t ^ n) (n * t ^ (n - 1)) t := hasDerivAt_zpow_of_nonneg (by omega)
  refine ⟨?_, ?_⟩
  · have := ((((isGrad_vdot_left x y).add (isGrad_const c)).scalar (hb _)).const_mul s)
    exact this.congr (fun _ => rfl) (fun i => by simp [polynomialSem]; ring)
  · have := ((((isGrad_vdot_right x y).add (isGrad_const c)).scalar (hb _)).const_mul s)
    exact this.congr (fun _ => rfl) (fun i => by simp [polynomialSem]; ring)

theorem isDiv_polynomial (s c : ℝ) {n : ℤ} (hn : 2 ≤ n) :
    IsDiv (fun x' => (polynomialSem s c n : KSem d).gradY x' y) ((polynomialSem s c n : KSem d).div x y) x := by
  have hb : ∀ t : ℝ, HasDerivAt (fun t : ℝ => t ^ (n - 1)) ((n - 1 : ℤ) * t ^ (n - 1 - 1)) t :=
    hasDerivAt_zpow_of_nonneg (by omega)
  refine ⟨_, fun i => ((((isGrad_coord i).const_mul (s * n))).mul
    (((isGrad_vdot_left x y).add (isGrad_const c)).scalar (hb _))), ?_⟩
  have e : n - 1 - 1 = n - 2 := by ring
  simp only [polynomialSem, e, add_zero, if_true, mul_one, Finset.sum_add_distrib, Finset.sum_const, Finset.card_univ,
    Fintype.card_fin, nsmul_eq_mul]
  have h1 : ∑ i, s * n * x i * (((n - 1 : ℤ) : ℝ) * (vdot x y + c) ^ (n - 2) * y i)
      = s * n * ((n - 1 : ℤ) : ℝ) * (vdot x y + c) ^ (n - 2) * vdot x y := by
    rw [vdot, Finset.mul_sum]
    exact Finset.sum_congr rfl fun i _ => by ring
  rw [h1]
  ring

/-! ### Radial kernels -/

theorem hasDerivAt_sqrt_pos {s : ℝ} (hs : 0 < s) : HasDerivAt Real.sqrt (1 / (2 * Real.sqrt s)) s :=
  Real.hasDerivAt_sqrt hs.ne'

theorem hasDerivAt_expLin (c t : ℝ) : HasDerivAt (fun t => Real.exp (-t / c)) (-1 / c * Real.exp (-t / c)) t := by
  have h1 : HasDerivAt (fun t : ℝ => -t / c) (-1 / c) t := (hasDerivAt_id t).fun_neg.div_const c
  exact h1.exp.congr_deriv (mul_comm _ _)

theorem hasDerivAt_expSqrt (c : ℝ) {t : ℝ} (ht : 0 < t) :
    HasDerivAt (fun t => Real.exp (-Real.sqrt t / c)) (-(1 / (2 * Real.sqrt t)) / c * Real.exp (-Real.sqrt t / c)) t := by
  have h1 : HasDerivAt (fun t : ℝ => -Real.sqrt t / c) (-(1 / (2 * Real.sqrt t)) / c) t :=
    (hasDerivAt_sqrt_pos ht).fun_neg.div_const c
  exact h1.exp.congr_deriv (mul_comm _ _)

theorem gradOk_exponential {l s : ℝ} (hl : 0 < l) (h : x ≠ y) : GradOk (exponentialSem l s : KSem d) x y := by
  have hs := sqDist_pos h
  have hq := Real.sqrt_pos.2 hs
  refine gradOk_radial (φ := fun t => s * Real.exp (-Real.sqrt t / (2 * l ^ 2)))
    (fun x y => by simp only [exponentialSem, nrm_eq])
    ((hasDerivAt_expSqrt (2 * l ^ 2) hs).const_mul s) (fun i => ?_) (fun i => ?_)
  · simp only [exponentialSem, nrm_eq, Pi.neg_apply]
    field_simp
  · simp only [exponentialSem, nrm_eq]
    field_simp

theorem isDiv_exponential {l s : ℝ} (hl : 0 < l) (h : x ≠ y) :
    IsDiv (fun x' => (exponentialSem l s : KSem d).gradY x' y) ((exponentialSem l s : KSem d).div x y) x := by
  have hs := sqDist_pos h
  have hq := Real.sqrt_pos.2 hs
  have hf : (2 * l ^ 2) * Real.sqrt (sqDist x y) ≠ 0 := by positivity
  refine isDiv_of_radial (h := fun t => s * Real.exp (-Real.sqrt t / (2 * l ^ 2)) / ((2 * l ^ 2) * Real.sqrt t))
    (fun z i => by simp only [exponentialSem, nrm_eq]; ring)
    (((hasDerivAt_expSqrt (2 * l ^ 2) hs).const_mul s).fun_div
      ((hasDerivAt_sqrt_pos hs).const_mul (2 * l ^ 2)) hf) ?_
  have e : ∀ e c : ℝ, vdot (fun i => (-e * (x i - y i) / nrm x y ^ 2) * c) (x - y) = -e / nrm x y ^ 2 * c * sqDist x y := by
    intro e c
    rw [vdot, sqDist, Finset.mul_sum]
    exact Finset.sum_congr rfl fun i _ => by rw [Pi.sub_apply]; ring
  simp only [exponentialSem, e]
  rw [nrm_eq]
  have h2 : sqDist x y = Real.sqrt (sqDist x y) ^ 2 := (Real.sq_sqrt hs.le).symm
  generalize Real.sqrt (sqDist x y) = q at *
  rw [h2]
  generalize Real.exp (-q / (2 * l ^ 2)) = e
  field_simp
  ring

theorem gradOk_squaredExponential {l s : ℝ} (hl : 0 < l) : GradOk (squaredExponentialSem l s : KSem d) x y := by
  refine gradOk_radial (φ := fun t => s * Real.exp (-t / (2 * l ^ 2))) (fun x y => rfl)
    ((hasDerivAt_expLin (2 * l ^ 2) _).const_mul s) (fun i => ?_) (fun i => ?_)
  · simp only [squaredExponentialSem, Pi.neg_apply]
    field_simp
  · simp only [squaredExponentialSem]
    field_simp

theorem isDiv_squaredExponential {l s : ℝ} (hl : 0 < l) :
    IsDiv (fun x' => (squaredExponentialSem l s : KSem d).gradY x' y) ((squaredExponentialSem l s : KSem d).div x y) x := by
  refine isDiv_of_radial (h := fun t => 1 / l ^ 2 * (s * Real.exp (-t / (2 * l ^ 2))))
    (fun z i => by simp only [squaredExponentialSem]; ring)
    (((hasDerivAt_expLin (2 * l ^ 2) _).const_mul s).const_mul (1 / l ^ 2)) ?_
  simp only [squaredExponentialSem]
  field_simp
  ring

theorem hasDerivAt_pcimq {l : ℝ} (hl : 0 < l) (t : ℝ) (ht : 0 ≤ t) :
    HasDerivAt (fun t => 1 / Real.sqrt (1 + t / (2 * l ^ 2)))
      (-(1 / (2 * (2 * l ^ 2))) * (1 / Real.sqrt (1 + t / (2 * l ^ 2))) ^ 3) t := by
  have hp : 0 < 1 + t / (2 * l ^ 2) := by positivity
  have hq := Real.sqrt_pos.2 hp
  have h1 : HasDerivAt (fun t => 1 + t / (2 * l ^ 2)) (1 / (2 * l ^ 2)) t :=
    ((hasDerivAt_id t).div_const (2 * l ^ 2)).const_add 1
  have h2 := (h1.sqrt hp.ne').inv hq.ne'
  simp only [one_div] at h2 ⊢
  refine h2.congr_deriv ?_
  generalize Real.sqrt (1 + t / (2 * l ^ 2)) = q at *
  field_simp

theorem gradOk_pcimq {l s : ℝ} (hl : 0 < l) (hs : 0 < s) : GradOk (pcimqSem l s : KSem d) x y := by
  refine gradOk_radial (φ := fun t => s * (1 / Real.sqrt (1 + t / (2 * l ^ 2))))
    (fun x y => by simp only [pcimqSem]; ring) ((hasDerivAt_pcimq hl _ (sqDist_nonneg x y)).const_mul s)
    (fun i => ?_) (fun i => ?_)
  · simp only [pcimqSem, Pi.neg_apply]
    field_simp
  · simp only [pcimqSem]
    field_simp

theorem isDiv_pcimq {l s : ℝ} (hl : 0 < l) (hs : 0 < s) :
    IsDiv (fun x' => (pcimqSem l s : KSem d).gradY x' y) ((pcimqSem l s : KSem d).div x y) x := by
  refine isDiv_of_radial (h := fun t => s / (2 * l ^ 2) * (1 / Real.sqrt (1 + t / (2 * l ^ 2))) ^ 3)
    (fun z i => by simp only [pcimqSem]; field_simp)
    (((hasDerivAt_pcimq hl _ (sqDist_nonneg x y)).pow 3).const_mul _) ?_
  simp only [pcimqSem]
  have e : s / Real.sqrt (1 + sqDist x y / (2 * l ^ 2)) / s = 1 / Real.sqrt (1 + sqDist x y / (2 * l ^ 2)) := by
    field_simp
  rw [e]
  generalize 1 / Real.sqrt (1 + sqDist x y / (2 * l ^ 2)) = q
  field_simp
  ring

theorem hasDerivAt_rq {l a p : ℝ} (hl : 0 < l) (ha : 0 < a) (t : ℝ) (ht : 0 ≤ t) :
    HasDerivAt (fun t => (1 + t / (2 * a * l ^ 2)) ^ p) (p / (2 * a * l ^ 2) * (1 + t / (2 * a * l ^ 2)) ^ (p - 1)) t := by
  have hp : 0 < 1 + t / (2 * a * l ^ 2) := by positivity
  have h1 : HasDerivAt (fun t => 1 + t / (2 * a * l ^ 2)) (1 / (2 * a * l ^ 2)) t :=
    ((hasDerivAt_id t).div_const (2 * a * l ^ 2)).const_add 1
  refine (h1.rpow_const (p := p) (Or.inl hp.ne')).congr_deriv (by ring)

theorem gradOk_rationalQuadratic {l s a : ℝ} (hl : 0 < l) (ha : 0 < a) :
    GradOk (rationalQuadraticSem l s a : KSem d) x y := by
  refine gradOk_radial (φ := fun t => s * (1 + t / (2 * a * l ^ 2)) ^ (-a))
    (fun x y => rfl) ((hasDerivAt_rq hl ha _ (sqDist_nonneg x y)).const_mul s) (fun i => ?_) (fun i => ?_)
  · simp only [rationalQuadraticSem, Pi.neg_apply]
    field_simp
  · simp only [rationalQuadraticSem]
    field_simp

theorem isDiv_rationalQuadratic {l s a : ℝ} (hl : 0 < l) (ha : 0 < a) :
    IsDiv (fun x' => (rationalQuadraticSem l s a : KSem d).gradY x' y) ((rationalQuadraticSem l s a : KSem d).div x y) x := by
  refine isDiv_of_radial (h := fun t => s / l ^ 2 * (1 + t / (2 * a * l ^ 2)) ^ (-a - 1))
    (fun z i => by simp only [rationalQuadraticSem]; ring)
    ((hasDerivAt_rq hl ha _ (sqDist_nonneg x y)).const_mul _) ?_
  simp only [rationalQuadraticSem]
  have e1 : -(a + 1) = -a - 1 := by ring
  have e2 : -(a + 1 + 1) = -a - 1 - 1 := by ring
  have e3 : 2 * (a * l ^ 2) = 2 * a * l ^ 2 := by ring
  rw [e1, e2, e3]
  field_simp
  ring

/-! ### Periodic kernel -/

theorem hasDerivAt_perBody (p : ℝ) {t : ℝ} (ht : 0 < t) :
    HasDerivAt (fun t => Real.pi * Real.sqrt t / p) (Real.pi * (1 / (2 * Real.sqrt t)) / p) t :=
  ((hasDerivAt_sqrt_pos ht).const_mul Real.pi).div_const p

theorem hasDerivAt_perExp (l p : ℝ) {t : ℝ} (ht : 0 < t) :
    HasDerivAt (fun t => Real.exp (-(2 / l ^ 2) * Real.sin (Real.pi * Real.sqrt t / p) ^ 2))
      (-(2 / l ^ 2) * (2 * Real.sin (Real.pi * Real.sqrt t / p) * (Real.cos (Real.pi * Real.sqrt t / p)
        * (Real.pi * (1 / (2 * Real.sqrt t)) / p))) * Real.exp (-(2 / l ^ 2) * Real.sin (Real.pi * Real.sqrt t / p) ^ 2)) t := by
  have h1 := (((hasDerivAt_perBody p ht).sin.fun_pow 2).const_mul (-(2 / l ^ 2))).exp
  refine h1.congr_deriv ?_
  simp only [Nat.cast_ofNat, Nat.add_one_sub_one, pow_one]
  ring

theorem gradOk_periodic {l s p : ℝ} (hl : 0 < l) (hp : p ≠ 0) (h : x ≠ y) : GradOk (periodicSem l s p : KSem d) x y := by
  have hs := sqDist_pos h
  have hq := Real.sqrt_pos.2 hs
  refine gradOk_radial (φ := fun t => s * Real.exp (-(2 / l ^ 2) * Real.sin (Real.pi * Real.sqrt t / p) ^ 2))
    (fun x y => by
      simp only [periodicSem, nrm_eq]
      congr 2
      ring)
    ((hasDerivAt_perExp l p hs).const_mul s) (fun i => ?_) (fun i => ?_)
  · simp only [periodicSem, nrm_eq, Pi.neg_apply]
    generalize Real.exp _ = e
    generalize Real.sin _ = u
    generalize Real.cos _ = v
    field_simp
    ring
  · simp only [periodicSem, nrm_eq]
    generalize Real.exp _ = e
    generalize Real.sin _ = u
    generalize Real.cos _ = v
    field_simp
    ring

/-- The true divergence for the periodic kernel: the last term of the code has one factor `output_scale` too many. -/
theorem isDiv_periodic_true {l s p : ℝ} (hl : 0 < l) (hp : p ≠ 0) (h : x ≠ y) :
    IsDiv (fun x' => (periodicSem l s p : KSem d).gradY x' y)
      ((periodicSem l s p : KSem d).div x y
        + (s - 1) * s * (4 * Real.pi / (p * l ^ 2)) ^ 2 * Real.sin (Real.pi / p * nrm x y) ^ 2
          * Real.cos (Real.pi / p * nrm x y) ^ 2 * Real.exp (-(2 / l ^ 2) * Real.sin (Real.pi / p * nrm x y) ^ 2)) x := by
  have hs := sqDist_pos h
  have hq := Real.sqrt_pos.2 hs
  have hf : Real.sqrt (sqDist x y) * p * l ^ 2 ≠ 0 := by positivity
  have h3 : HasDerivAt (fun t => Real.sqrt t * p * l ^ 2) (1 / (2 * Real.sqrt (sqDist x y)) * p * l ^ 2) (sqDist x y) :=
    ((hasDerivAt_sqrt_pos hs).mul_const p).mul_const (l ^ 2)
  have hh : HasDerivAt (fun t => (4 * s * Real.pi) / (Real.sqrt t * p * l ^ 2) * Real.sin (Real.pi * Real.sqrt t / p)
      * Real.cos (Real.pi * Real.sqrt t / p) * Real.exp (-(2 / l ^ 2) * Real.sin (Real.pi * Real.sqrt t / p) ^ 2)) _ (sqDist x y) :=
    ((((hasDerivAt_const (sqDist x y) (4 * s * Real.pi)).fun_div h3 hf).fun_mul (hasDerivAt_perBody p hs).sin).fun_mul
      (hasDerivAt_perBody p hs).cos).fun_mul (hasDerivAt_perExp l p hs)
  refine (isDiv_radial' hh).congr (fun z i => ?_) ?_
  · simp only [periodicSem, nrm_eq]
    ring
  · have e : ∀ c1 c2 c3 c4 : ℝ, vdot (fun i => -((x i - y i) / nrm x y) * c1 - (x i - y i) / nrm x y * c2
        + (x i - y i) / nrm x y * c3 - c4 * (x i - y i)) (x - y)
        = ((-c1 - c2 + c3) / nrm x y - c4) * sqDist x y := by
      intro c1 c2 c3 c4
      rw [vdot, sqDist, Finset.mul_sum]
      exact Finset.sum_congr rfl fun i _ => by rw [Pi.sub_apply]; ring
    have e' : ∀ f1 f2 f3 f4 fa o : ℝ, vdot (fun i => -((x i - y i) / nrm x y) * f1 ^ 2 * f2 * f3 * f4
        - (x i - y i) / nrm x y * fa * f1 * f2 ^ 2 * f4 + (x i - y i) / nrm x y * fa * f1 * f3 ^ 2 * f4
          - o * (x i - y i) * f1 ^ 2 * f2 ^ 2 * f3 ^ 2 * f4) (x - y)
        = ((-(f1 ^ 2 * f2 * f3 * f4) - fa * f1 * f2 ^ 2 * f4 + fa * f1 * f3 ^ 2 * f4) / nrm x y
          - o * f1 ^ 2 * f2 ^ 2 * f3 ^ 2 * f4) * sqDist x y := by
      intro f1 f2 f3 f4 fa o
      rw [← e]
      congr 1
      ext i
      ring
    simp only [periodicSem, e']
    rw [nrm_eq]
    have h2 : sqDist x y = Real.sqrt (sqDist x y) ^ 2 := (Real.sq_sqrt hs.le).symm
    have hb : Real.pi / p * Real.sqrt (sqDist x y) = Real.pi * Real.sqrt (sqDist x y) / p := by ring
    rw [hb]
    generalize Real.sin (Real.pi * Real.sqrt (sqDist x y) / p) = u
    generalize Real.cos (Real.pi * Real.sqrt (sqDist x y) / p) = v
    generalize Real.sqrt (sqDist x y) = q at *
    rw [h2]
    generalize Real.exp (-(2 / l ^ 2) * u ^ 2) = e
    field_simp
    ring

/-! ### Laplacian kernel -/

theorem isGrad_nrm1 (h : ∀ i, x i ≠ y i) : IsGrad (fun x' => nrm1 x' y) (fun i => Real.sign (x i - y i)) x := by
  have hi : ∀ i, IsGrad (fun x' : Fin d → ℝ => |x' i - y i|) (fun j => Real.sign (x i - y i) * if i = j then 1 else 0) x := by
    intro i
    have h1 : IsGrad (fun x : Fin d → ℝ => x i - y i) (fun j => if i = j then 1 else 0) x :=
      ((isGrad_coord i).sub (isGrad_const (y i))).congr (fun _ => rfl) (fun j => by simp)
    refine h1.scalar (φ := fun t => |t|) ?_
    rcases lt_or_gt_of_ne (sub_ne_zero.2 (h i)) with hlt | hgt
    · rw [Real.sign_of_neg hlt]
      exact hasDerivAt_abs_neg hlt
    · rw [Real.sign_of_pos hgt]
      exact hasDerivAt_abs_pos hgt
  exact (IsGrad.sum Finset.univ fun i _ => hi i).congr (fun _ => rfl) (fun i => by simp)

theorem nrm1_comm (x y : Vec d) : nrm1 x y = nrm1 y x := Finset.sum_congr rfl fun i _ => abs_sub_comm _ _

theorem isGrad_laplacian {l s : ℝ} (h : ∀ i, x i ≠ y i) :
    IsGrad (fun x' => s * Real.exp (-nrm1 x' y / (2 * l ^ 2)))
      (fun i => -(Real.sign (x i - y i) / (2 * l ^ 2) * (s * Real.exp (-nrm1 x y / (2 * l ^ 2))))) x :=
  (((isGrad_nrm1 h).scalar (hasDerivAt_expLin (2 * l ^ 2) _)).const_mul s).congr (fun _ => rfl) (fun i => by ring)

theorem gradOk_laplacian {l s : ℝ} (h : ∀ i, x i ≠ y i) : GradOk (laplacianSem l s : KSem d) x y := by
  refine ⟨(isGrad_laplacian h).congr (fun _ => rfl) (fun i => rfl), ?_⟩
  refine (isGrad_laplacian (s := s) (l := l) (fun i => (h i).symm)).congr (fun z => ?_) (fun i => ?_)
  · simp only [laplacianSem, nrm1_comm x z]
  · simp only [laplacianSem, nrm1_comm x y]
    rw [show y i - x i = -(x i - y i) by ring, Real.sign_neg]
    ring

theorem sign_eventually (i : Fin d) (h : x i ≠ y i) :
    (fun z : Vec d => Real.sign (z i - y i)) =ᶠ[nhds x] fun _ => Real.sign (x i - y i) := by
  have hc : Continuous (fun z : Vec d => z i - y i) := (continuous_apply i).sub continuous_const
  rcases lt_or_gt_of_ne (sub_ne_zero.2 h) with hlt | hgt
  · filter_upwards [(isOpen_lt hc continuous_const).mem_nhds hlt] with z hz
    rw [Real.sign_of_neg hz, Real.sign_of_neg hlt]
  · filter_upwards [(isOpen_lt continuous_const hc).mem_nhds hgt] with z hz
    rw [Real.sign_of_pos hz, Real.sign_of_pos hgt]

theorem IsGrad.congr_nhds {f f' : Vec d → ℝ} {g : Vec d} (h : IsGrad f g x) (hf : f' =ᶠ[nhds x] f) : IsGrad f' g x :=
  HasFDerivAt.congr_of_eventuallyEq h hf

theorem isDiv_laplacian {l s : ℝ} (hl : 0 < l) (h : ∀ i, x i ≠ y i) :
    IsDiv (fun x' => (laplacianSem l s : KSem d).gradY x' y) ((laplacianSem l s : KSem d).div x y) x := by
  refine ⟨fun i j => Real.sign (x i - y i) / (2 * l ^ 2)
    * -(Real.sign (x j - y j) / (2 * l ^ 2) * (s * Real.exp (-nrm1 x y / (2 * l ^ 2)))), fun i => ?_, ?_⟩
  · refine IsGrad.congr_nhds ((isGrad_laplacian (s := s) (l := l) h).const_mul (Real.sign (x i - y i) / (2 * l ^ 2))) ?_
    filter_upwards [sign_eventually i (h i)] with z hz
    simp only [laplacianSem, hz]
  · have hs : ∀ i, Real.sign (x i - y i) * Real.sign (x i - y i) = 1 := by
      intro i
      rcases lt_or_gt_of_ne (sub_ne_zero.2 (h i)) with hlt | hgt
      · rw [Real.sign_of_neg hlt]; norm_num
      · rw [Real.sign_of_pos hgt]; norm_num
    have : ∀ i, Real.sign (x i - y i) / (2 * l ^ 2)
        * -(Real.sign (x i - y i) / (2 * l ^ 2) * (s * Real.exp (-nrm1 x y / (2 * l ^ 2))))
        = -(s * Real.exp (-nrm1 x y / (2 * l ^ 2))) / (4 * l ^ 4) := by
      intro i
      have := hs i
      generalize Real.sign (x i - y i) = u at *
      generalize Real.exp _ = e
      field_simp
      linear_combination (-4 * s * e) * this
    simp only [this, Finset.sum_const, Finset.card_univ, Fintype.card_fin, nsmul_eq_mul, laplacianSem]
    ring

/-! ### Poisson kernel (one dimension) -/

theorem poisson_den_pos {r : ℝ} (h0 : 0 < r) (h1 : r < 1) (t : ℝ) : 0 < 1 - 2 * r * Real.cos t + r ^ 2 := by
  nlinarith [Real.cos_le_one t, sq_nonneg (1 - r), mul_pos h0 h0, sub_pos.2 h1]

theorem nrm_one (x y : Vec 1) : nrm x y = |x 0 - y 0| := by
  simp [nrm, Real.sqrt_sq_eq_abs]

theorem hasDerivAt_poisson {r : ℝ} (h0 : 0 < r) (h1 : r < 1) (s t : ℝ) :
    HasDerivAt (fun t => s / (1 - 2 * r * Real.cos t + r ^ 2))
      (-(2 * s * r * Real.sin t / (1 - 2 * r * Real.cos t + r ^ 2) ^ 2)) t := by
  have hd : HasDerivAt (fun t => 1 - 2 * r * Real.cos t + r ^ 2) (-(2 * r * -Real.sin t)) t :=
    ((Real.hasDerivAt_cos t).const_mul (2 * r)).const_sub 1 |>.add_const _
  refine ((hasDerivAt_const t s).fun_div hd (poisson_den_pos h0 h1 t).ne').congr_deriv ?_
  ring

theorem isGrad_one {f : Vec 1 → ℝ} {φ : ℝ → ℝ} {φ' : ℝ} {x : Vec 1} (hf : ∀ z, f z = φ (z 0)) (h : HasDerivAt φ φ' (x 0)) :
    IsGrad f (fun _ => φ') x :=
  ((isGrad_coord (x := x) 0).scalar h).congr hf (fun i => by rw [Subsingleton.elim i 0]; simp)

theorem poissonSem_compute (r s : ℝ) (x y : Vec 1) :
    (poissonSem r s : KSem 1).compute x y = s / (1 - 2 * r * Real.cos (x 0 - y 0) + r ^ 2) := by
  simp only [poissonSem, nrm_one, Real.cos_abs]

theorem gradOk_poisson {r s : ℝ} (h0 : 0 < r) (h1 : r < 1) {x y : Vec 1} : GradOk (poissonSem r s : KSem 1) x y := by
  constructor
  · refine (isGrad_one (φ := fun t => s / (1 - 2 * r * Real.cos (t - y 0) + r ^ 2)) (fun z => poissonSem_compute r s z y)
      ((hasDerivAt_poisson h0 h1 s (x 0 - y 0)).comp_sub_const (x 0) (y 0))).congr (fun _ => rfl) (fun i => ?_)
    rw [Subsingleton.elim i 0]
    rfl
  · refine (isGrad_one (φ := fun t => s / (1 - 2 * r * Real.cos (x 0 - t) + r ^ 2)) (fun z => poissonSem_compute r s x z)
      ((hasDerivAt_poisson h0 h1 s (x 0 - y 0)).comp_const_sub (x 0) (y 0))).congr (fun _ => rfl) (fun i => ?_)
    rw [Subsingleton.elim i 0]
    simp only [poissonSem]
    ring

theorem isDiv_poisson {r s : ℝ} (h0 : 0 < r) (h1 : r < 1) {x y : Vec 1} :
    IsDiv (fun x' => (poissonSem r s : KSem 1).gradY x' y) ((poissonSem r s : KSem 1).div x y) x := by
  have hD := (poisson_den_pos h0 h1 (x 0 - y 0)).ne'
  have hd : HasDerivAt (fun t => 1 - 2 * r * Real.cos t + r ^ 2) (2 * r * Real.sin (x 0 - y 0)) (x 0 - y 0) :=
    (((Real.hasDerivAt_cos (x 0 - y 0)).const_mul (2 * r)).const_sub 1 |>.add_const _).congr_deriv (by ring)
  have h := (((Real.hasDerivAt_sin (x 0 - y 0)).const_mul (2 * s * r)).fun_div (hd.fun_pow 2) (pow_ne_zero 2 hD))
  refine ⟨fun _ _ => (2 * s * r * Real.cos (x 0 - y 0)) / (1 - 2 * r * Real.cos (x 0 - y 0) + r ^ 2) ^ 2
      - (8 * s * r ^ 2 * Real.sin (x 0 - y 0) ^ 2) / (1 - 2 * r * Real.cos (x 0 - y 0) + r ^ 2) ^ 3, fun i => ?_, ?_⟩
  · rw [Subsingleton.elim i 0]
    refine (isGrad_one (φ := fun t => (2 * s * r * Real.sin (t - y 0)) / (1 - 2 * r * Real.cos (t - y 0) + r ^ 2) ^ 2)
      (fun z => rfl) (h.comp_sub_const (x 0) (y 0))).congr (fun _ => rfl) (fun i => ?_)
    generalize 1 - 2 * r * Real.cos (x 0 - y 0) + r ^ 2 = D at *
    simp only [Nat.cast_ofNat, Nat.add_one_sub_one, pow_one]
    field_simp
    ring
  · simp only [poissonSem, nrm_one, Real.cos_abs, Finset.univ_unique, Finset.sum_singleton]
    rw [show Real.sin |x 0 - y 0| ^ 2 = Real.sin (x 0 - y 0) ^ 2 by
      rcases abs_choice (x 0 - y 0) with h | h <;> rw [h]
      rw [Real.sin_neg, neg_sq]]

/-! ### Composite kernels -/

theorem gradOk_add {a b : KSem d} (ha : GradOk a x y) (hb : GradOk b x y) : GradOk (addSem a b) x y :=
  ⟨ha.left.add hb.left, ha.right.add hb.right⟩

theorem isDiv_add {a b : KSem d} (ha : IsDiv (fun x' => a.gradY x' y) (a.div x y) x)
    (hb : IsDiv (fun x' => b.gradY x' y) (b.div x y) x) :
    IsDiv (fun x' => (addSem a b).gradY x' y) ((addSem a b).div x y) x := by
  obtain ⟨G, hG, eG⟩ := ha
  obtain ⟨G', hG', eG'⟩ := hb
  exact ⟨fun i j => G i j + G' i j, fun i => (hG i).add (hG' i), by
    simp only [addSem, eG, eG', Finset.sum_add_distrib]⟩

theorem gradOk_mul {a b : KSem d} (eq : Bool) (he : eq = true → a = b) (ha : GradOk a x y) (hb : GradOk b x y) :
    GradOk (mulSem eq a b) x y := by
  cases eq
  · exact ⟨(ha.left.mul hb.left).congr (fun _ => by simp [mulSem]) (fun i => by simp [mulSem]; ring),
      (ha.right.mul hb.right).congr (fun _ => by simp [mulSem]) (fun i => by simp [mulSem]; ring)⟩
  · obtain rfl := he rfl
    exact ⟨(ha.left.mul ha.left).congr (fun _ => by simp [mulSem, pow_two]) (fun i => by simp [mulSem]; ring),
      (ha.right.mul ha.right).congr (fun _ => by simp [mulSem, pow_two]) (fun i => by simp [mulSem]; ring)⟩

theorem isDiv_mul {a b : KSem d} (eq : Bool) (he : eq = true → a = b) (ha : GradOk a x y) (hb : GradOk b x y)
    (da : IsDiv (fun x' => a.gradY x' y) (a.div x y) x) (db : IsDiv (fun x' => b.gradY x' y) (b.div x y) x) :
    IsDiv (fun x' => (mulSem eq a b).gradY x' y) ((mulSem eq a b).div x y) x := by
  obtain ⟨G, hG, eG⟩ := da
  obtain ⟨G', hG', eG'⟩ := db
  have key := fun i => ((hG i).mul hb.left).add ((hG' i).mul ha.left)
  cases eq
  · refine ⟨_, fun i => (key i).congr (fun z => ?_) (fun _ => rfl), ?_⟩
    · simp [mulSem]
    · simp only [mulSem, eG, eG', vdot, Finset.mul_sum, ← Finset.sum_add_distrib, Bool.false_eq_true, if_false]
      exact Finset.sum_congr rfl fun i _ => by ring
  · obtain rfl := he rfl
    have hGG : G = G' := funext fun i => (hG i).unique (hG' i)
    subst hGG
    refine ⟨_, fun i => (key i).congr (fun z => ?_) (fun _ => rfl), ?_⟩
    · simp [mulSem]; ring
    · simp only [mulSem, eG, vdot, Finset.mul_sum, ← Finset.sum_add_distrib, if_true]
      exact Finset.sum_congr rfl fun i _ => by ring

theorem gradOk_power {k : KSem d} {n : ℤ} (hn : 1 ≤ n) (hk : GradOk k x y) : GradOk (powerSem k n) x y := by
  have hb : ∀ t : ℝ, HasDerivAt (fun t : ℝ => t ^ n) (n * t ^ (n - 1)) t := hasDerivAt_zpow_of_nonneg (by omega)
  exact ⟨(hk.left.scalar (hb _)).congr (fun _ => rfl) (fun i => by simp only [powerSem]; ring),
    (hk.right.scalar (hb _)).congr (fun _ => rfl) (fun i => by simp only [powerSem]; ring)⟩

theorem isDiv_power {k : KSem d} {n : ℤ} (hn : 1 ≤ n) (hk : GradOk k x y)
    (dk : IsDiv (fun x' => k.gradY x' y) (k.div x y) x) :
    IsDiv (fun x' => (powerSem k n).gradY x' y) ((powerSem k n).div x y) x := by
  have hb : ∀ t : ℝ, HasDerivAt (fun t : ℝ => t ^ (n - 1)) ((n - 1 : ℤ) * t ^ (n - 1 - 1)) t :=
    hasDerivAt_zpow_of_nonneg (by omega)
  obtain ⟨G, hG, eG⟩ := dk
  refine ⟨_, fun i => (((hG i).const_mul n).mul (hk.left.scalar (hb _))), ?_⟩
  have e : n - 1 - 1 = n - 2 := by ring
  simp only [powerSem, eG, vdot, e, Finset.mul_sum, ← Finset.sum_add_distrib]
  exact Finset.sum_congr rfl fun i _ => by ring

/-! ### Default (automatic) derivatives -/

theorem gradOk_ofCompute {k : Vec d → Vec d → ℝ} (h1 : DifferentiableAt ℝ (fun x' => k x' y) x)
    (h2 : DifferentiableAt ℝ (fun y' => k x y') y) : GradOk (KSem.ofCompute k) x y :=
  ⟨isGrad_fderiv h1, isGrad_fderiv h2⟩

theorem isDiv_ofCompute {k : Vec d → Vec d → ℝ} (h : DifferentiableAt ℝ (fun x' => (KSem.ofCompute k).gradY x' y) x) :
    IsDiv (fun x' => (KSem.ofCompute k).gradY x' y) ((KSem.ofCompute k).div x y) x := isDiv_fderiv h

/-- A kernel without closed-form derivatives that is a twice differentiable function of the squared distance. -/
theorem ofCompute_radial {k : Vec d → Vec d → ℝ} {φ : ℝ → ℝ} (hk : ∀ x y, k x y = φ (sqDist x y))
    (hφ : ∀ t, 0 < t → ContDiffAt ℝ 2 φ t) (h : x ≠ y) :
    GradOk (KSem.ofCompute k) x y ∧ DifferentiableAt ℝ (fun x' => (KSem.ofCompute k).gradY x' y) x := by
  have hd1 : ∀ t, 0 < t → HasDerivAt φ (deriv φ t) t := fun t ht =>
    ((hφ t ht).differentiableAt (by norm_num)).hasDerivAt
  have hright : ∀ z : Vec d, z ≠ y → IsGrad (fun y' => k z y') (fun i => -(2 * deriv φ (sqDist z y)) * (z i - y i)) y := by
    intro z hz
    have h1 := hd1 _ (sqDist_pos hz)
    rw [sqDist_comm] at h1
    refine (isGrad_radial z h1).congr (fun w => by rw [hk, sqDist_comm]; rfl) (fun i => ?_)
    rw [sqDist_comm z y]
    ring
  have hleft : IsGrad (fun x' => k x' y) (fun i => deriv φ (sqDist x y) * (2 * (x i - y i))) x :=
    (isGrad_radial y (hd1 _ (sqDist_pos h))).congr (fun w => hk w y) (fun i => rfl)
  refine ⟨gradOk_ofCompute hleft.differentiableAt (hright x h).differentiableAt, ?_⟩
  have hd2 : HasDerivAt (deriv φ) (deriv (deriv φ) (sqDist x y)) (sqDist x y) := by
    have h2 : ContDiffAt ℝ 1 (fderiv ℝ φ) (sqDist x y) := (hφ _ (sqDist_pos h)).fderiv_right (by norm_num)
    have h3 : DifferentiableAt ℝ (fun t => fderiv ℝ φ t 1) (sqDist x y) :=
      (h2.differentiableAt (by norm_num)).clm_apply (differentiableAt_const 1)
    exact h3.hasDerivAt
  have h3 := (isDiv_radial' (y := y) ((hd2.const_mul 2).fun_neg)).differentiableAt
  refine h3.congr_of_eventuallyEq ?_
  filter_upwards [isOpen_ne.mem_nhds h] with z hz
  ext i
  have := (hright z hz).unique (isGrad_fderiv (hright z hz).differentiableAt)
  exact (congrFun this i).symm

theorem matern_contDiffAt (l s : ℝ) (p : ℕ) (t : ℝ) (ht : 0 < t) :
    ContDiffAt ℝ 2 (fun t => (s ^ 2 * Real.exp (-(Real.sqrt (2 * p + 1) * Real.sqrt t / l)) * p.factorial / (2 * p).factorial)
      * (if 0 < p then ∑ i ∈ Finset.range (p + 1), ((p + i).factorial : ℝ) / (i.factorial * (p - i).factorial)
        * (2 * (Real.sqrt (2 * p + 1) * Real.sqrt t / l)) ^ (p - i) else 1)) t := by
  have hs : ContDiffAt ℝ 2 Real.sqrt t := Real.contDiffAt_sqrt ht.ne'
  have hb : ContDiffAt ℝ 2 (fun t => Real.sqrt (2 * p + 1) * Real.sqrt t / l) t :=
    (contDiffAt_const.mul hs).div_const l
  refine ContDiffAt.mul ?_ ?_
  · exact (((contDiffAt_const.mul hb.neg.exp).mul contDiffAt_const).div_const _)
  · by_cases h : 0 < p
    · simp only [h, if_true]
      exact ContDiffAt.sum fun i _ => contDiffAt_const.mul ((contDiffAt_const.mul hb).pow _)
    · simp only [h, if_false]
      exact contDiffAt_const

theorem matern_ok (l s : ℝ) (p : ℕ) (h : x ≠ y) :
    GradOk (KSem.ofCompute (maternCompute l s p)) x y ∧
      DifferentiableAt ℝ (fun x' => (KSem.ofCompute (maternCompute l s p)).gradY x' y) x :=
  ofCompute_radial (k := maternCompute l s p) (fun x y => by simp only [maternCompute, nrm_eq])
    (fun t ht => matern_contDiffAt l s p t ht) h

end Coreax
